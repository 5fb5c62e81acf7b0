import Verif.Model.Rounded
import Verif.Lemmas.Ultra
import Verif.Props.Greens

/-! # Property C114, first part: `GreenConstruct` in rounded arithmetic -/

set_option autoImplicit false

namespace Verif.Rounded

open Filter Topology Matrix Verif.Lapack Verif.TimeFlow Verif.Greens Verif.Ultra

variable {N : ℕ}

/-! ## Specification -/

/-- the floating point operations have errors of at most `u`, relative to the size `b` of the operands, provided `b` is at most
`1 / u` (no overflow) and denominators are at least `1 / b`; nothing is required of the logarithm -/
structure Ops.Within (op : Ops) (u : ℝ) : Prop where
  add : ∀ b x y, 1 ≤ b → b * u ≤ 1 → |x| ≤ b → |y| ≤ b → |op.add x y - (x + y)| ≤ u * b
  sub : ∀ b x y, 1 ≤ b → b * u ≤ 1 → |x| ≤ b → |y| ≤ b → |op.sub x y - (x - y)| ≤ u * b
  mul : ∀ b x y, 1 ≤ b → b * u ≤ 1 → |x| ≤ b → |y| ≤ b → |op.mul x y - x * y| ≤ u * b ^ 2
  div : ∀ b x y, 1 ≤ b → b * u ≤ 1 → |x| ≤ b → 1 ≤ b * |y| → |op.div x y - x / y| ≤ u * b ^ 2

/-- the reflectors stored in `F` and `tau` are reflections up to errors of at most `e`, and their vectors are bounded -/
def Reflects {m k : ℕ} (e : ℝ) (F : Matrix (Fin m) (Fin k) ℝ) (tau : Fin k → ℝ) : Prop :=
  ∀ i, (tau i = 0 ∨ |tau i * (houseVec F i ⬝ᵥ houseVec F i) - 2| ≤ e) ∧ ∀ r, i.val < r.val → |F r i| ≤ 2

/-- a QR decomposition of `A` in packed format, up to errors -/
structure NearQR {m k : ℕ} (u e : ℝ) (A F : Matrix (Fin m) (Fin k) ℝ) (tau : Fin k → ℝ) : Prop where
  refl : Reflects u F tau
  eq : Near e (qMat F tau * upper F) A

/-- the calls of BLAS and LAPACK have errors of at most `u b^k` for matrices with entries of at most `b ≤ 1 / u`; linear systems are
required to have a determinant of at least `1 / b` -/
structure Arith.Within (ar : Arith N) (k : ℕ) (u : ℝ) : Prop where
  ops : ar.toOps.Within u
  gemm : ∀ b A B, 1 ≤ b → b * u ≤ 1 → Below b A → Below b B → Near (u * b ^ k) (ar.gemm A B) (A * B)
  trmm : ∀ b F T, 1 ≤ b → b * u ≤ 1 → Below b F → Below b T → Near (u * b ^ k) (ar.trmm F T) (upper F * T)
  ger : ∀ b α x y A, 1 ≤ b → b * u ≤ 1 → |α| ≤ b → (∀ i, |x i| ≤ b) → (∀ i, |y i| ≤ b) → Below b A →
    Near (u * b ^ k) (ar.ger α x y A) (A + α • vecMulVec x y)
  geqp3 : ∀ b A, 1 ≤ b → b * u ≤ 1 → Below b A →
    NearQR u (u * b ^ k) (A.submatrix id (ar.geqp3 A).2.2) (ar.geqp3 A).1 (ar.geqp3 A).2.1
  geqrf : ∀ b A, 1 ≤ b → b * u ≤ 1 → Below b A → NearQR u (u * b ^ k) A (ar.geqrf A).1 (ar.geqrf A).2
  ormqr : ∀ b F tau C, 1 ≤ b → b * u ≤ 1 → Reflects 1 F tau → Below b C → Near (u * b ^ k) (ar.ormqr F tau C) (C * qMat F tau)
  ormqrT : ∀ b F tau C, 1 ≤ b → b * u ≤ 1 → Reflects 1 F tau → Below b C → Near (u * b ^ k) (ar.ormqrT F tau C) (C * (qMat F tau)ᵀ)
  getrf : ∀ b A, 1 ≤ b → b * u ≤ 1 → Below b A → 1 ≤ b * |A.det| →
    Near (u * b ^ k) (pivMat (ar.getrf A).2 * unitLower (ar.getrf A).1 * upper (ar.getrf A).1) A
  getrs : ∀ b A G, 1 ≤ b → b * u ≤ 1 → Below b A → Below b G → 1 ≤ b * |A.det| →
    Near (u * b ^ k) (A * ar.getrs (ar.getrf A).1 (ar.getrf A).2 G) G

/-- `s` is the sign of `x` -/
def SignOf (s : ℤ) (x : ℝ) : Prop := (s = 1 ∨ s = -1) ∧ 0 < (s : ℝ) * x

/-- the record differs by at most `e` from the Green's function of the product of the matrices `B` that starts at slice `shift`,
and has the correct sign -/
structure NearG (e : ℝ) (B : ℕ → Mat N) (L shift : ℕ) (G : GreensFn N) : Prop where
  mat : Near e G.mat (1 + cyclicProd B L shift)⁻¹
  sgn : SignOf G.sgndet (1 + cyclicProd B L shift).det

/-! ## Elementary facts -/

theorem SignOf.mul {s s' : ℤ} {x x' : ℝ} (h : SignOf s x) (h' : SignOf s' x') : SignOf (s * s') (x * x') := by
  refine ⟨?_, ?_⟩
  · rcases h.1 with a | a <;> rcases h'.1 with b | b <;> rw [a, b] <;> simp
  · push_cast
    have := mul_pos h.2 h'.2
    linarith [show (s : ℝ) * s' * (x * x') = s * x * (s' * x') by ring]

theorem SignOf.of_mul_pos {s : ℤ} {x y : ℝ} (h : SignOf s x) (hxy : 0 < x * y) : SignOf s y := by
  refine ⟨h.1, ?_⟩
  have h2 := h.2
  have := mul_pos h2 hxy
  have hx2 : 0 < x ^ 2 := by
    have : x ≠ 0 := by rintro rfl; simp at hxy
    positivity
  rw [show (s : ℝ) * x * (x * y) = x ^ 2 * (s * y) by ring] at this
  exact (mul_pos_iff_of_pos_left hx2).1 this

theorem SignOf.one : SignOf 1 1 := ⟨Or.inl rfl, by norm_num⟩

theorem SignOf.ne {s : ℤ} {x : ℝ} (h : SignOf s x) : x ≠ 0 := by
  rintro rfl
  have := h.2
  simp at this

theorem SignOf.prod {ι : Type} (S : Finset ι) (s : ι → ℤ) (x : ι → ℝ) (h : ∀ i ∈ S, SignOf (s i) (x i)) :
    SignOf (∏ i ∈ S, s i) (∏ i ∈ S, x i) := by
  classical
  induction S using Finset.induction_on with
  | empty => simpa using SignOf.one
  | insert a S ha ih =>
    rw [Finset.prod_insert ha, Finset.prod_insert ha]
    exact (h a (Finset.mem_insert_self _ _)).mul (ih fun i hi => h i (Finset.mem_insert_of_mem hi))

theorem Near.mono {m k : ℕ} {e e' : ℝ} {A B : Matrix (Fin m) (Fin k) ℝ} (h : Near e A B) (he : e ≤ e') : Near e' A B := fun i j => (h i j).trans he

theorem NearG.mono {e e' : ℝ} {B : ℕ → Mat N} {L l : ℕ} {G : GreensFn N} (h : NearG e B L l G) (he : e ≤ e') : NearG e' B L l G :=
  ⟨Near.mono h.mat he, h.sgn⟩

theorem Reflects.mono {m k : ℕ} {e e' : ℝ} {F : Matrix (Fin m) (Fin k) ℝ} {tau : Fin k → ℝ} (h : Reflects e F tau) (he : e ≤ e') : Reflects e' F tau :=
  fun i => ⟨(h i).1.imp id fun h => h.trans he, (h i).2⟩

theorem Ops.Within.mono {op : Ops} {u u' : ℝ} (h : op.Within u) (hu : u ≤ u') : op.Within u' := by
  have H : ∀ b : ℝ, 1 ≤ b → b * u' ≤ 1 → b * u ≤ 1 := fun b hb h => (mul_le_mul_of_nonneg_left hu (by linarith)).trans h
  constructor
  · exact fun b x y hb hbu hx hy => (h.add b x y hb (H b hb hbu) hx hy).trans (mul_le_mul_of_nonneg_right hu (by linarith))
  · exact fun b x y hb hbu hx hy => (h.sub b x y hb (H b hb hbu) hx hy).trans (mul_le_mul_of_nonneg_right hu (by linarith))
  · exact fun b x y hb hbu hx hy => (h.mul b x y hb (H b hb hbu) hx hy).trans (mul_le_mul_of_nonneg_right hu (by positivity))
  · exact fun b x y hb hbu hx hy => (h.div b x y hb (H b hb hbu) hx hy).trans (mul_le_mul_of_nonneg_right hu (by positivity))

/-- less accurate is less accurate -/
theorem Arith.Within.mono {ar : Arith N} {k : ℕ} {u u' : ℝ} (h : ar.Within k u) (hu : u ≤ u') : ar.Within k u' := by
  have H : ∀ b : ℝ, 1 ≤ b → b * u' ≤ 1 → b * u ≤ 1 := fun b hb h => (mul_le_mul_of_nonneg_left hu (by linarith)).trans h
  have E : ∀ b : ℝ, 1 ≤ b → u * b ^ k ≤ u' * b ^ k := fun b hb => mul_le_mul_of_nonneg_right hu (by positivity)
  constructor
  · exact h.ops.mono hu
  · exact fun b A B hb hbu h1 h2 => Near.mono (h.gemm b A B hb (H b hb hbu) h1 h2) (E b hb)
  · exact fun b A B hb hbu h1 h2 => Near.mono (h.trmm b A B hb (H b hb hbu) h1 h2) (E b hb)
  · exact fun b α x y A hb hbu h1 h2 h3 h4 => Near.mono (h.ger b α x y A hb (H b hb hbu) h1 h2 h3 h4) (E b hb)
  · intro b A hb hbu h1
    have := h.geqp3 b A hb (H b hb hbu) h1
    exact ⟨this.refl.mono hu, Near.mono this.eq (E b hb)⟩
  · intro b A hb hbu h1
    have := h.geqrf b A hb (H b hb hbu) h1
    exact ⟨this.refl.mono hu, Near.mono this.eq (E b hb)⟩
  · exact fun b F tau C hb hbu h1 h2 => Near.mono (h.ormqr b F tau C hb (H b hb hbu) h1 h2) (E b hb)
  · exact fun b F tau C hb hbu h1 h2 => Near.mono (h.ormqrT b F tau C hb (H b hb hbu) h1 h2) (E b hb)
  · exact fun b A hb hbu h1 h2 => Near.mono (h.getrf b A hb (H b hb hbu) h1 h2) (E b hb)
  · exact fun b A G hb hbu h1 h2 h3 => Near.mono (h.getrs b A G hb (H b hb hbu) h1 h2 h3) (E b hb)

/-! ## Limits of the operations -/

section limits

variable {ι : Type} {U : Ultrafilter ι}

/-- operations which become exact along the ultrafilter -/
structure OpsAlong (U : Ultrafilter ι) (op : ι → Ops) (u : ι → ℝ) : Prop where
  null : Tendsto u U (𝓝 0)
  within : ∀ᶠ t in (U : Filter ι), (op t).Within (u t)

/-- an arithmetic which becomes exact along the ultrafilter -/
structure Along (U : Ultrafilter ι) (ar : ι → Arith N) (k : ℕ) (u : ι → ℝ) : Prop where
  null : Tendsto u U (𝓝 0)
  within : ∀ᶠ t in (U : Filter ι), (ar t).Within k (u t)

theorem Along.ops {ar : ι → Arith N} {k : ℕ} {u : ι → ℝ} (h : Along U ar k u) : OpsAlong U (fun t => (ar t).toOps) u :=
  ⟨h.null, h.within.mono fun _ h => h.ops⟩

section ops

variable {op : ι → Ops} {u : ι → ℝ} {x y : ι → ℝ} {x₀ y₀ : ℝ}

theorem OpsAlong.add (h : OpsAlong U op u) (hx : Tendsto x U (𝓝 x₀)) (hy : Tendsto y U (𝓝 y₀)) :
    Tendsto (fun t => (op t).add (x t) (y t)) U (𝓝 (x₀ + y₀)) := by
  refine lim_of_near (c := |x₀| + |y₀| + 1) h.null (hx.add hy) ?_
  filter_upwards [h.within, bounded_of_lim hx, bounded_of_lim hy, small h.null (|x₀| + |y₀| + 1)] with t a b c d
  have := abs_nonneg x₀
  have := abs_nonneg y₀
  exact a.add _ _ _ (by linarith) d (by linarith) (by linarith)

theorem OpsAlong.sub (h : OpsAlong U op u) (hx : Tendsto x U (𝓝 x₀)) (hy : Tendsto y U (𝓝 y₀)) :
    Tendsto (fun t => (op t).sub (x t) (y t)) U (𝓝 (x₀ - y₀)) := by
  refine lim_of_near (c := |x₀| + |y₀| + 1) h.null (hx.sub hy) ?_
  filter_upwards [h.within, bounded_of_lim hx, bounded_of_lim hy, small h.null (|x₀| + |y₀| + 1)] with t a b c d
  have := abs_nonneg x₀
  have := abs_nonneg y₀
  exact a.sub _ _ _ (by linarith) d (by linarith) (by linarith)

theorem OpsAlong.mul (h : OpsAlong U op u) (hx : Tendsto x U (𝓝 x₀)) (hy : Tendsto y U (𝓝 y₀)) :
    Tendsto (fun t => (op t).mul (x t) (y t)) U (𝓝 (x₀ * y₀)) := by
  refine lim_of_near (c := (|x₀| + |y₀| + 1) ^ 2) h.null (hx.mul hy) ?_
  filter_upwards [h.within, bounded_of_lim hx, bounded_of_lim hy, small h.null (|x₀| + |y₀| + 1)] with t a b c d
  have := abs_nonneg x₀
  have := abs_nonneg y₀
  exact a.mul _ _ _ (by linarith) d (by linarith) (by linarith)

theorem away {y : ι → ℝ} {y₀ : ℝ} (hy : Tendsto y U (𝓝 y₀)) (h0 : y₀ ≠ 0) : ∀ᶠ t in (U : Filter ι), 1 ≤ 2 / |y₀| * |y t| := by
  have hp : 0 < |y₀| := abs_pos.2 h0
  filter_upwards [hy.abs.eventually (lt_mem_nhds (show |y₀| / 2 < |y₀| by linarith))] with t ht
  rw [div_mul_eq_mul_div, le_div_iff₀ hp]
  linarith

theorem OpsAlong.div (h : OpsAlong U op u) (hx : Tendsto x U (𝓝 x₀)) (hy : Tendsto y U (𝓝 y₀)) (h0 : y₀ ≠ 0) :
    Tendsto (fun t => (op t).div (x t) (y t)) U (𝓝 (x₀ / y₀)) := by
  have hp : 0 ≤ 2 / |y₀| := by positivity
  refine lim_of_near (c := (|x₀| + 2 / |y₀| + 1) ^ 2) h.null (hx.div hy h0) ?_
  filter_upwards [h.within, bounded_of_lim hx, away hy h0, small h.null (|x₀| + 2 / |y₀| + 1)] with t a b c d
  have := abs_nonneg x₀
  refine a.div _ _ _ (by linarith) d (by linarith) (c.trans (mul_le_mul_of_nonneg_right (by linarith) (abs_nonneg _)))

end ops

variable {ar : ι → Arith N} {k : ℕ} {u : ι → ℝ}

theorem Along.gemm (h : Along U ar k u) {A B : ι → Mat N} {A₀ B₀ : Mat N} (hA : MLim U A A₀) (hB : MLim U B B₀) :
    MLim U (fun t => (ar t).gemm (A t) (B t)) (A₀ * B₀) := by
  have a1 := one_le_bnd A₀
  have b1 := one_le_bnd B₀
  refine mlim_of_near (c := (bnd A₀ + bnd B₀) ^ k) h.null (hA.mul hB) ?_
  filter_upwards [h.within, hA.below, hB.below, small h.null (bnd A₀ + bnd B₀)] with t a b c d
  exact a.gemm _ _ _ (by linarith) d (b.mono (by linarith)) (c.mono (by linarith))

theorem Along.trmm (h : Along U ar k u) {F T : ι → Mat N} {R₀ T₀ : Mat N} {b : ℝ} (hF : ∀ᶠ t in (U : Filter ι), Below b (F t))
    (hR : MLim U (fun t => upper (F t)) R₀) (hT : MLim U T T₀) : MLim U (fun t => (ar t).trmm (F t) (T t)) (R₀ * T₀) := by
  have b1 := one_le_bnd T₀
  refine mlim_of_near (c := (|b| + bnd T₀) ^ k) h.null (hR.mul hT) ?_
  filter_upwards [h.within, hF, hT.below, small h.null (|b| + bnd T₀)] with t a b' c d
  have := le_abs_self b
  have := abs_nonneg b
  exact a.trmm _ _ _ (by linarith) d (b'.mono (by linarith)) (c.mono (by linarith))

theorem Along.ger (h : Along U ar k u) {α : ι → ℝ} {x y : ι → Fin N → ℝ} {A : ι → Mat N} {α₀ : ℝ} {x₀ y₀ : Fin N → ℝ} {A₀ : Mat N}
    (hα : Tendsto α U (𝓝 α₀)) (hx : ∀ i, Tendsto (fun t => x t i) U (𝓝 (x₀ i))) (hy : ∀ i, Tendsto (fun t => y t i) U (𝓝 (y₀ i)))
    (hA : MLim U A A₀) : MLim U (fun t => (ar t).ger (α t) (x t) (y t) (A t)) (A₀ + α₀ • vecMulVec x₀ y₀) := by
  have hl : MLim U (fun t => A t + α t • vecMulVec (x t) (y t)) (A₀ + α₀ • vecMulVec x₀ y₀) := by
    intro i j
    simp only [Matrix.add_apply, Matrix.smul_apply, vecMulVec_apply, smul_eq_mul]
    exact (hA i j).add (hα.mul ((hx i).mul (hy j)))
  have a1 := one_le_bnd A₀
  have sx : 0 ≤ ∑ i, |x₀ i| := Finset.sum_nonneg fun i _ => abs_nonneg _
  have sy : 0 ≤ ∑ i, |y₀ i| := Finset.sum_nonneg fun i _ => abs_nonneg _
  have sα := abs_nonneg α₀
  have lx : ∀ (z : Fin N → ℝ) i, |z i| ≤ ∑ i, |z i| := fun z i =>
    Finset.single_le_sum (f := fun i => |z i|) (fun i _ => abs_nonneg _) (Finset.mem_univ i)
  refine mlim_of_near (c := (bnd A₀ + |α₀| + ∑ i, |x₀ i| + ∑ i, |y₀ i| + 1) ^ k) h.null hl ?_
  have ex : ∀ᶠ t in (U : Filter ι), ∀ i, |x t i| ≤ |x₀ i| + 1 := eventually_all.2 fun i => bounded_of_lim (hx i)
  have ey : ∀ᶠ t in (U : Filter ι), ∀ i, |y t i| ≤ |y₀ i| + 1 := eventually_all.2 fun i => bounded_of_lim (hy i)
  filter_upwards [h.within, hA.below, bounded_of_lim hα, ex, ey, small h.null (bnd A₀ + |α₀| + ∑ i, |x₀ i| + ∑ i, |y₀ i| + 1)]
    with t a b c d e f
  refine a.ger _ _ _ _ _ (by linarith) f (by linarith) (fun i => ?_) (fun i => ?_) (b.mono (by linarith))
  · linarith [d i, lx x₀ i]
  · linarith [e i, lx y₀ i]

/-! ## Orthogonal factors -/

theorem houseVec_pos (F : Mat N) (i : Fin N) : 1 ≤ houseVec F i ⬝ᵥ houseVec F i := by
  unfold dotProduct
  have h := Finset.single_le_sum (f := fun r => houseVec F i r * houseVec F i r) (fun r _ => mul_self_nonneg _) (Finset.mem_univ i)
  have e : houseVec F i i = 1 := by simp [houseVec]
  simp only [e] at h
  linarith

theorem entry_le (v : Fin N → ℝ) (a b : Fin N) : |v a * v b| ≤ v ⬝ᵥ v := by
  have h : ∀ c, v c * v c ≤ v ⬝ᵥ v := fun c =>
    Finset.single_le_sum (f := fun r => v r * v r) (fun r _ => mul_self_nonneg _) (Finset.mem_univ c)
  rw [abs_mul]
  have ha := h a
  have hb := h b
  rw [← abs_mul_abs_self (v a)] at ha
  rw [← abs_mul_abs_self (v b)] at hb
  nlinarith [sq_nonneg (|v a| - |v b|)]

theorem det_reflector_eq (F : Mat N) (tau : Fin N → ℝ) (i : Fin N) :
    (reflector F tau i).det = 1 - tau i * (houseVec F i ⬝ᵥ houseVec F i) := by
  have h1 : reflector F tau i
      = 1 + replicateCol Unit (-tau i • houseVec F i) * replicateRow Unit (houseVec F i) := by
    rw [← vecMulVec_eq]
    ext a b
    simp only [reflector, Matrix.sub_apply, Matrix.add_apply, Matrix.smul_apply, vecMulVec_apply, Pi.smul_apply, smul_eq_mul]
    ring
  rw [h1, det_one_add_replicateCol_mul_replicateRow, dotProduct_smul, smul_eq_mul]
  ring

/-- one reflector -/
theorem reflector_lim {F : ι → Mat N} {tau : ι → Fin N → ℝ} (hu : Tendsto u U (𝓝 0))
    (h : ∀ᶠ t in (U : Filter ι), Reflects (u t) (F t) (tau t)) (i : Fin N) :
    ∃ H : Mat N, MLim U (fun t => reflector (F t) (tau t) i) H ∧ Hᵀ = H ∧ H * H = 1 ∧
      ∀ᶠ t in (U : Filter ι), H.det = if 0 < tau t i then -1 else 1 := by
  have hor : ∀ᶠ t in (U : Filter ι), tau t i = 0 ∨ |tau t i * (houseVec (F t) i ⬝ᵥ houseVec (F t) i) - 2| ≤ u t :=
    h.mono fun t ht => (ht i).1
  rcases Ultrafilter.eventually_or.1 hor with h0 | h2
  · refine ⟨1, ?_, transpose_one, Matrix.one_mul 1, ?_⟩
    · refine (MLim.const 1).congr' ?_
      filter_upwards [h0] with t ht
      rw [reflector, ht, zero_smul, sub_zero]
    · filter_upwards [h0] with t ht
      rw [ht, if_neg (lt_irrefl 0), det_one]
  · have hlim : Tendsto (fun t => tau t i * (houseVec (F t) i ⬝ᵥ houseVec (F t) i)) U (𝓝 2) :=
      lim_of_near (c := 1) hu tendsto_const_nhds (by simpa using h2)
    have hpos : ∀ᶠ t in (U : Filter ι), 0 < tau t i := by
      filter_upwards [hlim.eventually (lt_mem_nhds (show (0 : ℝ) < 2 by norm_num))] with t ht
      have := houseVec_pos (F t) i
      exact (pos_iff_pos_of_mul_pos ht).2 (by linarith)
    obtain ⟨W, hW⟩ : ∃ W, MLim U (fun t => tau t i • vecMulVec (houseVec (F t) i) (houseVec (F t) i)) W := by
      refine exists_mlim (b := 3) ?_
      filter_upwards [hlim.eventually (gt_mem_nhds (show (2 : ℝ) < 3 by norm_num)), hpos] with t ht hp a b
      rw [Matrix.smul_apply, vecMulVec_apply, smul_eq_mul, abs_mul, abs_of_pos hp]
      exact (mul_le_mul_of_nonneg_left (entry_le _ a b) hp.le).trans ht.le
    have hH : MLim U (fun t => reflector (F t) (tau t) i) (1 - W) := (MLim.const 1).sub hW
    refine ⟨1 - W, hH, ?_, ?_, ?_⟩
    · refine MLim.unique ?_ hH
      have := hH.transpose
      simp only [reflector_transpose] at this
      exact this
    · have h1 := hH.mul hH
      have e : ∀ t, reflector (F t) (tau t) i * reflector (F t) (tau t) i
          = 1 - (2 - tau t i * (houseVec (F t) i ⬝ᵥ houseVec (F t) i)) • (tau t i • vecMulVec (houseVec (F t) i) (houseVec (F t) i)) := by
        intro t
        unfold reflector
        rw [Matrix.sub_mul, Matrix.mul_sub, Matrix.mul_sub, Matrix.one_mul, Matrix.one_mul, Matrix.mul_one, smul_mul_smul_comm,
          vecMulVec_mul_self, smul_smul]
        module
      simp only [e] at h1
      have h3 : MLim U (fun t => 1 - (2 - tau t i * (houseVec (F t) i ⬝ᵥ houseVec (F t) i)) •
          (tau t i • vecMulVec (houseVec (F t) i) (houseVec (F t) i))) (1 - (2 - (2 : ℝ)) • W) := by
        refine (MLim.const 1).sub fun a b => ?_
        rw [Matrix.smul_apply, smul_eq_mul]
        exact (tendsto_const_nhds.sub hlim).mul (hW a b)
      rw [sub_self, zero_smul, sub_zero] at h3
      exact h1.unique h3
    · have hd := hH.det
      simp only [det_reflector_eq] at hd
      have : (1 - W).det = 1 - 2 := tendsto_nhds_unique hd (tendsto_const_nhds.sub hlim)
      filter_upwards [hpos] with t ht
      rw [if_pos ht, this]
      norm_num

theorem mlim_list {α : Type} (H : ι → α → Mat N) (H₀ : α → Mat N) (h : ∀ a, MLim U (fun t => H t a) (H₀ a)) (l : List α) :
    MLim U (fun t => (l.map (H t)).prod) (l.map H₀).prod := by
  induction l with
  | nil => simpa using MLim.const (1 : Mat N)
  | cons a l ih =>
    simp only [List.map_cons, List.prod_cons]
    exact (h a).mul ih

/-- the orthogonal factor -/
theorem qMat_lim {F : ι → Mat N} {tau : ι → Fin N → ℝ} (hu : Tendsto u U (𝓝 0))
    (h : ∀ᶠ t in (U : Filter ι), Reflects (u t) (F t) (tau t)) :
    ∃ Q : Mat N, MLim U (fun t => qMat (F t) (tau t)) Q ∧ Qᵀ * Q = 1 ∧
      ∀ᶠ t in (U : Filter ι), Q.det = ∏ i, if 0 < tau t i then -1 else 1 := by
  choose H h1 h2 h3 h4 using fun i => reflector_lim hu h i
  refine ⟨((List.finRange N).map H).prod, mlim_list _ _ h1 _, list_prod_orthogonal H (fun i => ?_) _, ?_⟩
  · rw [h2]; exact h3 i
  · filter_upwards [eventually_all.2 h4] with t ht
    rw [det_list_prod, Fin.prod_univ_def]
    simp only [ht]

/-- limits of QR decompositions are QR decompositions -/
theorem qr_lim {A F : ι → Mat N} {tau : ι → Fin N → ℝ} {A₀ : Mat N} {c : ℝ} (hu : Tendsto u U (𝓝 0)) (hA : MLim U A A₀)
    (h : ∀ᶠ t in (U : Filter ι), NearQR (u t) (u t * c) (A t) (F t) (tau t)) :
    ∃ Q R : Mat N, MLim U (fun t => qMat (F t) (tau t)) Q ∧ Qᵀ * Q = 1 ∧
      (∀ᶠ t in (U : Filter ι), Q.det = ∏ i, if 0 < tau t i then -1 else 1) ∧
      MLim U (fun t => upper (F t)) R ∧ upper R = R ∧ A₀ = Q * R := by
  obtain ⟨Q, q1, q2, q3⟩ := qMat_lim hu (h.mono fun t ht => ht.refl)
  have hdet : Q.det ≠ 0 := by
    intro h0
    have := congrArg det q2
    rw [det_mul, det_transpose, h0, det_one] at this
    norm_num at this
  have hQR : MLim U (fun t => qMat (F t) (tau t) * upper (F t)) A₀ := by
    refine mlim_of_near (c := c) hu hA ?_
    filter_upwards [h] with t ht
    exact ht.eq
  have hR : MLim U (fun t => upper (F t)) (Q⁻¹ * A₀) := by
    refine ((q1.inv hdet).mul hQR).congr' ?_
    filter_upwards [q1.det.eventually_ne hdet] with t ht
    rw [← Matrix.mul_assoc, Matrix.nonsing_inv_mul _ (IsUnit.mk0 _ ht), Matrix.one_mul]
  refine ⟨Q, Q⁻¹ * A₀, q1, q2, q3, hR, ?_, ?_⟩
  · ext i j
    by_cases hij : i.val ≤ j.val
    · rw [upper, of_apply, if_pos hij]
    · have h0 := hR i j
      simp only [upper, of_apply, if_neg hij] at h0 ⊢
      exact tendsto_nhds_unique tendsto_const_nhds h0
  · rw [← Matrix.mul_assoc, Matrix.mul_nonsing_inv _ (IsUnit.mk0 _ hdet), Matrix.one_mul]

theorem Along.qrp (h : Along U ar k u) {A : ι → Mat N} {A₀ : Mat N} (hA : MLim U A A₀) :
    ∀ᶠ t in (U : Filter ι), NearQR (u t) (u t * bnd A₀ ^ k) ((A t).submatrix id ((ar t).geqp3 (A t)).2.2) ((ar t).geqp3 (A t)).1
      ((ar t).geqp3 (A t)).2.1 := by
  filter_upwards [h.within, hA.below, small h.null (bnd A₀)] with t a b c
  exact a.geqp3 _ _ (one_le_bnd _) c b

theorem Along.qr (h : Along U ar k u) {A : ι → Mat N} {A₀ : Mat N} (hA : MLim U A A₀) :
    ∀ᶠ t in (U : Filter ι), NearQR (u t) (u t * bnd A₀ ^ k) (A t) ((ar t).geqrf (A t)).1 ((ar t).geqrf (A t)).2 := by
  filter_upwards [h.within, hA.below, small h.null (bnd A₀)] with t a b c
  exact a.geqrf _ _ (one_le_bnd _) c b

theorem reflects_one {m k : ℕ} {F : ι → Matrix (Fin m) (Fin k) ℝ} {tau : ι → Fin k → ℝ} (hu : Tendsto u U (𝓝 0))
    (h : ∀ᶠ t in (U : Filter ι), Reflects (u t) (F t) (tau t)) : ∀ᶠ t in (U : Filter ι), Reflects 1 (F t) (tau t) := by
  filter_upwards [h, hu.eventually (gt_mem_nhds (show (0 : ℝ) < 1 by norm_num))] with t a b
  exact a.mono b.le

theorem Along.ormqr (h : Along U ar k u) {F C : ι → Mat N} {tau : ι → Fin N → ℝ} {Q₀ C₀ : Mat N}
    (hF : ∀ᶠ t in (U : Filter ι), Reflects (u t) (F t) (tau t)) (hQ : MLim U (fun t => qMat (F t) (tau t)) Q₀) (hC : MLim U C C₀) :
    MLim U (fun t => (ar t).ormqr (F t) (tau t) (C t)) (C₀ * Q₀) := by
  refine mlim_of_near (c := bnd C₀ ^ k) h.null (hC.mul hQ) ?_
  filter_upwards [h.within, hC.below, reflects_one h.null hF, small h.null (bnd C₀)] with t a b c d
  exact a.ormqr _ _ _ _ (one_le_bnd _) d c b

theorem Along.ormqrT (h : Along U ar k u) {F C : ι → Mat N} {tau : ι → Fin N → ℝ} {Q₀ C₀ : Mat N}
    (hF : ∀ᶠ t in (U : Filter ι), Reflects (u t) (F t) (tau t)) (hQ : MLim U (fun t => qMat (F t) (tau t)) Q₀) (hC : MLim U C C₀) :
    MLim U (fun t => (ar t).ormqrT (F t) (tau t) (C t)) (C₀ * Q₀ᵀ) := by
  refine mlim_of_near (c := bnd C₀ ^ k) h.null (hC.mul hQ.transpose) ?_
  filter_upwards [h.within, hC.below, reflects_one h.null hF, small h.null (bnd C₀)] with t a b c d
  exact a.ormqrT _ _ _ _ (one_le_bnd _) d c b

/-! ## `TimeFlowMap` -/

/-- flows which converge to `Q diag(d) T` -/
structure FlowLim (U : Ultrafilter ι) (u : ι → ℝ) (f : ι → Flow N) (Q : Mat N) (d : Fin N → ℝ) (T : Mat N) : Prop where
  refl : ∀ᶠ t in (U : Filter ι), Reflects (u t) (f t).Q (f t).tau
  q : MLim U (fun t => qMat (f t).Q (f t).tau) Q
  orth : Qᵀ * Q = 1
  det : ∀ᶠ t in (U : Filter ι), Q.det = ∏ i, if 0 < (f t).tau i then -1 else 1
  scale : ∀ i, Tendsto (fun t => (f t).d i) U (𝓝 (d i))
  ne : ∀ i, d i ≠ 0
  tri : MLim U (fun t => (f t).T) T

theorem one_lim : Tendsto (fun _ : ι => (1.0 : ℝ)) U (𝓝 1) := by norm_num

theorem diagOf_lim {F : ι → Mat N} {R : Mat N} (hR : MLim U (fun t => upper (F t)) R) (hne : ∀ i, R i i ≠ 0) (i : Fin N) :
    Tendsto (fun t => diagOf (F t) i) U (𝓝 (R i i)) := by
  have h1 : Tendsto (fun t => F t i i) U (𝓝 (R i i)) := by
    have := hR i i
    simpa [upper] using this
  refine h1.congr' ?_
  filter_upwards [h1.eventually_ne (hne i)] with t ht
  rw [diagOf, if_neg ht]

theorem diag_ne {Q R A : Mat N} (hR : upper R = R) (hA : A = Q * R) (h : A.det ≠ 0) (i : Fin N) : R i i ≠ 0 := by
  intro h0
  refine h ?_
  rw [hA, det_mul, ← hR, det_upper, Finset.prod_eq_zero (f := fun i => R i i) (Finset.mem_univ i) h0, mul_zero]

theorem upper_zero {R : Mat N} (hR : upper R = R) {i j : Fin N} (h : ¬i ≤ j) : R i j = 0 := by
  rw [← hR, upper, of_apply, if_neg (by simpa using h)]

/-- the first decomposition -/
theorem flowInit_lim [NeZero N] (h : Along U ar k u) {B : ι → Mat N} {B₀ : Mat N} (hB : MLim U B B₀) (hdet : B₀.det ≠ 0) :
    ∃ Q d T, FlowLim U u (fun t => flowInit (ar t) (B t)) Q d T ∧ Q * diagonal d * T = B₀ := by
  obtain ⟨p, hp⟩ := exists_const (U := U) fun t => ((ar t).geqp3 (B t)).2.2
  have hA : MLim U (fun t => (B t).submatrix id ((ar t).geqp3 (B t)).2.2) (B₀.submatrix id p) := by
    refine MLim.congr' (A := fun t => (B t).submatrix id p) (fun i j => hB i (p j)) ?_
    filter_upwards [hp] with t ht
    rw [ht]
  have hqr := h.qrp hB
  obtain ⟨Q, R, q1, q2, q3, r1, r2, e⟩ := qr_lim h.null hA hqr
  have hd : (B₀.submatrix id p).det ≠ 0 := by
    rw [det_permute']
    refine mul_ne_zero ?_ hdet
    rcases Int.units_eq_one_or (Equiv.Perm.sign p) with e | e <;> rw [e] <;> norm_num
  have hne := diag_ne r2 e hd
  refine ⟨Q, fun i => R i i, Matrix.of fun i c => 1 / R i i * R i (p.symm c), ⟨?_, q1, q2, q3, diagOf_lim r1 hne, hne, ?_⟩, ?_⟩
  · filter_upwards [hqr] with t ht
    exact ht.refl
  · intro i c
    by_cases hic : i ≤ p.symm c
    · have h1 := h.ops.mul (h.ops.div one_lim (diagOf_lim r1 hne i) (hne i)) (r1 i (p.symm c))
      refine h1.congr' ?_
      filter_upwards [hp] with t ht
      have e2 : (flowInit (ar t) (B t)).T i c = if i ≤ ((ar t).geqp3 (B t)).2.2.symm c then
        (ar t).mul ((ar t).div 1.0 (diagOf ((ar t).geqp3 (B t)).1 i)) (((ar t).geqp3 (B t)).1 i (((ar t).geqp3 (B t)).2.2.symm c))
        else 0 := rfl
      rw [e2, ht, if_pos hic, upper, of_apply, if_pos (by simpa using hic)]
    · rw [of_apply, upper_zero r2 hic, mul_zero]
      refine tendsto_const_nhds.congr' ?_
      filter_upwards [hp] with t ht
      have e2 : (flowInit (ar t) (B t)).T i c = if i ≤ ((ar t).geqp3 (B t)).2.2.symm c then
        (ar t).mul ((ar t).div 1.0 (diagOf ((ar t).geqp3 (B t)).1 i)) (((ar t).geqp3 (B t)).1 i (((ar t).geqp3 (B t)).2.2.symm c))
        else 0 := rfl
      rw [e2, ht, if_neg hic]
  · have e1 : (diagonal fun i => R i i) * (Matrix.of fun i c => 1 / R i i * R i (p.symm c)) = R.submatrix id p.symm := by
      ext i c
      have := hne i
      rw [diagonal_mul, of_apply, submatrix_apply, id]
      field_simp
    rw [Matrix.mul_assoc, e1]
    ext i j
    have e3 := congrFun (congrFun e i) (p.symm j)
    rw [submatrix_apply, id, Equiv.apply_symm_apply] at e3
    rw [e3]
    rfl

/-- one further block -/
theorem flowStep_lim (h : Along U ar k u) {f : ι → Flow N} {Q : Mat N} {d : Fin N → ℝ} {T : Mat N} (hf : FlowLim U u f Q d T)
    {B : ι → Mat N} {B₀ : Mat N} (hB : MLim U B B₀) (hdet : B₀.det ≠ 0) :
    ∃ Q' d' T', FlowLim U u (fun t => flowStep (ar t) (f t) (B t)) Q' d' T' ∧
      Q' * diagonal d' * T' = B₀ * (Q * diagonal d * T) := by
  set W : ι → Mat N := fun t => Matrix.of fun i j => (ar t).mul ((f t).d j) ((ar t).ormqr (f t).Q (f t).tau (B t) i j) with hW
  have hWl : MLim U W (B₀ * Q * diagonal d) := by
    intro i j
    rw [mul_diagonal, mul_comm]
    exact h.ops.mul (hf.scale j) (h.ormqr hf.refl hf.q hB i j)
  choose σ hσ using fun t => pivotOrder_spec (fun j => (ar t).nrm2 fun i => W t i j) (f t).jpvt
  obtain ⟨p, hp⟩ := exists_const (U := U) σ
  set A : ι → Mat N := fun t => Matrix.of fun i j : Fin N => W t i (pivotOrder (fun j => (ar t).nrm2 fun i => W t i j) (f t).jpvt j)
    with hAdef
  have hA : MLim U A ((B₀ * Q * diagonal d).submatrix id p) := by
    refine MLim.congr' (A := fun t => (W t).submatrix id p) (fun i j => hWl i (p j)) ?_
    filter_upwards [hp] with t ht
    ext i j
    rw [hAdef]
    simp only [of_apply, submatrix_apply, id, (hσ t).1, ht]
  have hqr := h.qr hA
  obtain ⟨Q', R, q1, q2, q3, r1, r2, e⟩ := qr_lim h.null hA hqr
  have hd : ((B₀ * Q * diagonal d).submatrix id p).det ≠ 0 := by
    rw [det_permute', det_mul, det_mul, det_diagonal]
    refine mul_ne_zero ?_ (mul_ne_zero (mul_ne_zero hdet ?_) (Finset.prod_ne_zero_iff.2 fun i _ => hf.ne i))
    · rcases Int.units_eq_one_or (Equiv.Perm.sign p) with e | e <;> rw [e] <;> norm_num
    · intro h0
      have := congrArg Matrix.det hf.orth
      rw [det_mul, h0, mul_zero, det_one] at this
      norm_num at this
  have hne := diag_ne r2 e hd
  set F : ι → Mat N := fun t => ((ar t).geqrf (A t)).1 with hF
  set F' : ι → Mat N := fun t => Matrix.of fun i j =>
    if i ≤ j then (ar t).mul (F t i j) ((ar t).div 1.0 (diagOf (F t) i)) else F t i j with hF'
  have hlow : ∀ t (r : Fin N) (i : Fin N), i.val < r.val → F t r i = F' t r i := by
    intro t r i hri
    rw [hF']
    simp only [of_apply]
    rw [if_neg (not_le.2 (Fin.lt_def.2 hri))]
  have hhouse : ∀ t i, houseVec (F t) i = houseVec (F' t) i := by
    intro t i
    ext r
    unfold houseVec
    split
    · rfl
    · split
      · rfl
      · exact hlow t r i (by omega)
  have hrefl : ∀ᶠ t in (U : Filter ι), Reflects (u t) (F' t) ((ar t).geqrf (A t)).2 := by
    filter_upwards [hqr] with t ht i
    rw [← hhouse]
    refine ⟨(ht.refl i).1, fun r hr => ?_⟩
    rw [← hlow t r i hr]
    exact (ht.refl i).2 r hr
  have hup : MLim U (fun t => upper (F' t)) (Matrix.of fun i j => R i j * (1 / R i i)) := by
    intro i j
    by_cases hij : i ≤ j
    · have h1 := h.ops.mul (r1 i j) (h.ops.div one_lim (diagOf_lim r1 hne i) (hne i))
      refine h1.congr' (Eventually.of_forall fun t => ?_)
      simp only [upper, of_apply]
      rw [if_pos (by simpa using hij), if_pos (by simpa using hij), hF']
      simp only [of_apply]
      rw [if_pos hij]
    · rw [of_apply, upper_zero r2 hij, zero_mul]
      refine tendsto_const_nhds.congr' (Eventually.of_forall fun t => ?_)
      simp only [upper, of_apply]
      rw [if_neg (by simpa using hij)]
  have hbel : ∀ᶠ t in (U : Filter ι), Below (bnd (Matrix.of fun i j => R i j * (1 / R i i)) + 2) (F' t) := by
    filter_upwards [hup.below, hrefl] with t a b i j
    have o := one_le_bnd (Matrix.of fun i j => R i j * (1 / R i i))
    by_cases hij : i ≤ j
    · have := a i j
      rw [upper, of_apply, if_pos (by simpa using hij)] at this
      linarith
    · linarith [(b j).2 i (not_le.1 hij)]
  have hT : MLim U (fun t => Matrix.of fun i j : Fin N => (f t).T (pivotOrder (fun j => (ar t).nrm2 fun i => W t i j) (f t).jpvt i) j)
      (T.submatrix p id) := by
    refine MLim.congr' (A := fun t => (f t).T.submatrix p id) (fun i j => hf.tri (p i) j) ?_
    filter_upwards [hp] with t ht
    ext i j
    simp only [of_apply, submatrix_apply, id, (hσ t).1, ht]
  refine ⟨Q', fun i => R i i, _, ⟨hrefl, ?_, q2, q3, diagOf_lim r1 hne, hne, h.trmm hbel hup hT⟩, ?_⟩
  · refine q1.congr' (Eventually.of_forall fun t => ?_)
    exact qMat_congr _ (hlow t)
  · have e1 : (diagonal fun i => R i i) * (Matrix.of fun i j => R i j * (1 / R i i)) = R := by
      ext i c
      have := hne i
      rw [diagonal_mul, of_apply]
      field_simp
    rw [Matrix.mul_assoc, ← Matrix.mul_assoc (diagonal _), e1, ← Matrix.mul_assoc, ← e, submatrix_mul_equiv]
    simp only [Matrix.mul_assoc]
    rfl

/-- C114: the rounded `TimeFlowMap` converges to a decomposition of the product of the limits of the cached matrices -/
theorem timeFlowMap_lim [NeZero N] (h : Along U ar k u) {tsm : ι → TSM N} {P : ℕ → Mat N} {num len : ℕ} (hnum : 0 < num)
    (hdims : ∀ t, (tsm t).numBprod = num ∧ (tsm t).prodBlen = len)
    (hP : ∀ m < num, MLim U (fun t => (tsm t).Bprod m) (P m)) (hdet : ∀ m < num, (P m).det ≠ 0) (sh : ℕ) :
    ∃ Q d T, FlowLim U u (fun t => timeFlowMap (ar t) (tsm t) sh) Q d T ∧
      Q * diagonal d * T = prodSeq (fun l => P ((l + sh / len) % num)) num := by
  have main : ∀ j, ∃ Q d T, FlowLim U u (fun t => (List.range' 1 j).foldl
        (fun f l => flowStep (ar t) f ((tsm t).Bprod ((l + sh / len) % num)))
        (flowInit (ar t) ((tsm t).Bprod (sh / len % num)))) Q d T ∧
      Q * diagonal d * T = prodSeq (fun l => P ((l + sh / len) % num)) (j + 1) := by
    intro j
    induction j with
    | zero =>
      have hm := Nat.mod_lt (sh / len) hnum
      obtain ⟨Q, d, T, h1, h2⟩ := flowInit_lim h (hP _ hm) (hdet _ hm)
      refine ⟨Q, d, T, h1, ?_⟩
      rw [h2]
      simp [prodSeq]
    | succ j ih =>
      obtain ⟨Q, d, T, h1, h2⟩ := ih
      have hm := Nat.mod_lt (1 + j + sh / len) hnum
      obtain ⟨Q', d', T', h3, h4⟩ := flowStep_lim h h1 (hP _ hm) (hdet _ hm)
      refine ⟨Q', d', T', ?_, ?_⟩
      · simp only [List.range'_1_concat, List.foldl_append, List.foldl_cons, List.foldl_nil]
        exact h3
      · rw [h4, h2, add_comm 1 j]
        rfl
  obtain ⟨Q, d, T, h1, h2⟩ := main (num - 1)
  refine ⟨Q, d, T, ?_, ?_⟩
  · have e : ∀ t, timeFlowMap (ar t) (tsm t) sh = (List.range' 1 (num - 1)).foldl
        (fun f l => flowStep (ar t) f ((tsm t).Bprod ((l + sh / len) % num)))
        (flowInit (ar t) ((tsm t).Bprod (sh / len % num))) := by
      intro t
      unfold timeFlowMap
      rw [(hdims t).1, (hdims t).2]
    simp only [e]
    exact h1
  · rw [h2, Nat.sub_add_cancel hnum]

/-! ## `GreenConstruct` -/

theorem foldl_sign (step : DetRec → Fin N → DetRec) (x : Fin N → ℝ)
    (h : ∀ r i y, SignOf r.sgndet y → SignOf (step r i).sgndet (y * x i)) (r : DetRec) (y : ℝ) (hy : SignOf r.sgndet y) :
    SignOf ((List.finRange N).foldl step r).sgndet (y * ∏ i, x i) := by
  rw [Fin.prod_univ_def]
  generalize List.finRange N = l
  induction l generalizing r y with
  | nil => simpa using hy
  | cons i l ih =>
    rw [List.foldl_cons, List.map_cons, List.prod_cons, ← mul_assoc]
    exact ih _ _ (h r i y hy)

theorem SignOf.neg {s : ℤ} {y x : ℝ} (h : SignOf s y) (hx : x < 0) : SignOf (-s) (y * x) := by
  have := h.mul (s' := -1) (x' := x) ⟨Or.inr rfl, by push_cast; linarith⟩
  simpa using this

theorem SignOf.pos {s : ℤ} {y x : ℝ} (h : SignOf s y) (hx : 0 < x) : SignOf s (y * x) := by
  have := h.mul (s' := 1) (x' := x) ⟨Or.inl rfl, by push_cast; linarith⟩
  simpa using this

theorem detStepU_sign (a : Arith N) (F : Mat N) (ipiv : Fin N → Fin N) (hF : ∀ i, F i i ≠ 0) (r : DetRec) (i : Fin N) (y : ℝ)
    (h : SignOf r.sgndet y) : SignOf (detStepU a F ipiv r i).sgndet (y * (F i i * if ipiv i ≠ i then -1 else 1)) := by
  rw [← mul_assoc]
  unfold detStepU
  by_cases ht : F i i < 0 <;> by_cases hp : ipiv i = i <;> simp only [ht, hp, if_true, if_false, ne_eq, not_true, not_false_iff]
  · exact (h.neg ht).pos one_pos
  · exact (h.neg ht).neg (by norm_num)
  · exact (h.pos (lt_of_le_of_ne (not_lt.1 ht) (hF i).symm)).pos one_pos
  · exact (h.pos (lt_of_le_of_ne (not_lt.1 ht) (hF i).symm)).neg (by norm_num)

theorem detStepD_sign (a : Arith N) (d : Fin N → ℝ) (r : DetRec) (i : Fin N) (y : ℝ) (h : SignOf r.sgndet y) :
    SignOf (detStepD a d r i).sgndet (y * if |d i| ≤ 1.0 then 1 else d i) := by
  unfold detStepD
  by_cases hd : |d i| ≤ 1.0
  · simp only [if_pos hd]
    exact h.pos one_pos
  · simp only [if_neg hd]
    by_cases ht : d i < 0
    · simp only [if_pos ht]
      exact h.neg ht
    · simp only [if_neg ht]
      refine h.pos (lt_of_le_of_ne (not_lt.1 ht) ?_)
      intro h0
      rw [← h0] at hd
      norm_num at hd

theorem detStepTau_sign (tau : Fin N → ℝ) (r : DetRec) (i : Fin N) (y : ℝ) (h : SignOf r.sgndet y) :
    SignOf (detStepTau tau r i).sgndet (y * if 0 < tau i then -1 else 1) := by
  unfold detStepTau
  by_cases ht : 0 < tau i
  · simp only [if_pos ht]
    exact h.neg (by norm_num)
  · simp only [if_neg ht]
    exact h.pos one_pos

/-- splitting of the scales for an arbitrary choice of the large ones -/
theorem split_any (Q T : Mat N) (d : Fin N → ℝ) (hQ : Qᵀ * Q = 1) (hd : ∀ i, d i ≠ 0) (le : Fin N → Bool) :
    let Db : Mat N := diagonal fun i => if le i then 1 else 1 / d i
    let Ds : Mat N := Matrix.of fun i j => if le i then d i * T i j else T i j
    let Dbig : Mat N := diagonal fun i => if le i then 1 else d i
    Db * Dbig = 1 ∧ 1 + Q * diagonal d * T = Q * Dbig * (Ds + Db * Qᵀ) := by
  intro Db Ds Dbig
  have h2 : Dbig * Db = 1 := by
    simp only [Dbig, Db]
    rw [diagonal_mul_diagonal, ← diagonal_one]
    congr 1; ext i
    have := hd i
    split
    · norm_num
    · field_simp
  refine ⟨mul_eq_one_comm.1 h2, ?_⟩
  have h1 : Dbig * Ds = diagonal d * T := by
    ext i j
    simp only [Dbig]
    rw [diagonal_mul, diagonal_mul]
    simp only [Ds, of_apply]
    split
    · rw [one_mul]
    · rfl
  rw [Matrix.mul_add, Matrix.mul_assoc Q _ Ds, h1, Matrix.mul_assoc Q _ (Db * Qᵀ),
    ← Matrix.mul_assoc _ Db, h2, Matrix.one_mul, mul_eq_one_comm.1 hQ, ← Matrix.mul_assoc, add_comm]

/-- solution of linear systems -/
theorem Along.solve (h : Along U ar k u) {S G : ι → Mat N} {S₀ G₀ : Mat N} (hS : MLim U S S₀) (hG : MLim U G G₀) (hdet : S₀.det ≠ 0) :
    (∀ᶠ t in (U : Filter ι), (∀ i, ((ar t).getrf (S t)).1 i i ≠ 0) ∧
      0 < ((∏ i, if ((ar t).getrf (S t)).2 i ≠ i then -1 else 1) * ∏ i, ((ar t).getrf (S t)).1 i i) * S₀.det) ∧
    MLim U (fun t => (ar t).getrs ((ar t).getrf (S t)).1 ((ar t).getrf (S t)).2 (G t)) (S₀⁻¹ * G₀) := by
  have s1 := one_le_bnd S₀
  have g1 := one_le_bnd G₀
  have hp : 0 ≤ 2 / |S₀.det| := by positivity
  have hP : MLim U (fun t => pivMat ((ar t).getrf (S t)).2 * unitLower ((ar t).getrf (S t)).1 * upper ((ar t).getrf (S t)).1) S₀ := by
    refine mlim_of_near (c := (bnd S₀ + 2 / |S₀.det|) ^ k) h.null hS ?_
    filter_upwards [h.within, hS.below, away hS.det hdet, small h.null (bnd S₀ + 2 / |S₀.det|)] with t a b c d
    exact a.getrf _ _ (by linarith) d (b.mono (by linarith)) (c.trans (mul_le_mul_of_nonneg_right (by linarith) (abs_nonneg _)))
  have hX : MLim U (fun t => S t * (ar t).getrs ((ar t).getrf (S t)).1 ((ar t).getrf (S t)).2 (G t)) G₀ := by
    refine mlim_of_near (c := (bnd S₀ + bnd G₀ + 2 / |S₀.det|) ^ k) h.null hG ?_
    filter_upwards [h.within, hS.below, hG.below, away hS.det hdet, small h.null (bnd S₀ + bnd G₀ + 2 / |S₀.det|)] with t a b e c d
    exact a.getrs _ _ _ (by linarith) d (b.mono (by linarith)) (e.mono (by linarith))
      (c.trans (mul_le_mul_of_nonneg_right (by linarith) (abs_nonneg _)))
  constructor
  · have hd := hP.det
    have hpos : 0 < S₀.det * S₀.det := mul_self_pos.2 hdet
    filter_upwards [(hd.mul_const S₀.det).eventually (lt_mem_nhds hpos)] with t ht
    rw [det_lu _ _ _ rfl] at ht
    refine ⟨fun i h0 => ?_, ht⟩
    rw [Finset.prod_eq_zero (f := fun i => ((ar t).getrf (S t)).1 i i) (Finset.mem_univ i) h0, mul_zero, zero_mul] at ht
    exact lt_irrefl _ ht
  · refine ((hS.inv hdet).mul hX).congr' ?_
    filter_upwards [hS.det.eventually_ne hdet] with t ht
    rw [← Matrix.mul_assoc, Matrix.nonsing_inv_mul _ (IsUnit.mk0 _ ht), Matrix.one_mul]

/-- C114: where the flow converges to `A` with `1 + A` invertible, the rounded `GreenConstruct` finds no zero pivot, its matrix
converges to `(1 + A)⁻¹`, and its sign is the sign of the determinant of `1 + A` from some point on -/
theorem greenConstruct_lim [NeZero N] (h : Along U ar k u) {tsm : ι → TSM N} {sh : ℕ} {Q : Mat N} {d : Fin N → ℝ} {T : Mat N}
    (hf : FlowLim U u (fun t => timeFlowMap (ar t) (tsm t) sh) Q d T) (hne : (1 + Q * diagonal d * T).det ≠ 0) :
    ∃ g : ι → GreensFn N, (∀ᶠ t in (U : Filter ι), greenConstruct (ar t) (tsm t) sh = some (g t)) ∧
      MLim U (fun t => (g t).mat) (1 + Q * diagonal d * T)⁻¹ ∧
      ∀ᶠ t in (U : Filter ι), SignOf (g t).sgndet (1 + Q * diagonal d * T).det := by
  classical
  set f : ι → Flow N := fun t => timeFlowMap (ar t) (tsm t) sh with hfdef
  obtain ⟨le, hle'⟩ := exists_const (U := U) fun t => fun i : Fin N => decide (|(f t).d i| ≤ 1.0)
  have hle : ∀ᶠ t in (U : Filter ι), ∀ i, (|(f t).d i| ≤ 1.0 ↔ le i = true) := by
    filter_upwards [hle'] with t ht i
    rw [← ht]
    simp
  obtain ⟨hDb, hsplit⟩ := split_any Q T d hf.orth hf.ne le
  set Db₀ : Mat N := diagonal fun i => if le i then 1 else 1 / d i with hDb₀
  set Ds₀ : Mat N := Matrix.of fun i j => if le i then d i * T i j else T i j with hDs₀
  set Dbig : Mat N := diagonal fun i => if le i then 1 else d i with hDbig
  have hDbl : MLim U (fun t => diagonal fun i => if |(f t).d i| > 1.0 then (ar t).div 1.0 ((f t).d i) else 1.0) Db₀ := by
    intro i j
    rw [hDb₀]
    by_cases hij : i = j
    · subst hij
      simp only [diagonal_apply_eq]
      by_cases hi : le i = true
      · simp only [if_pos hi]
        refine one_lim.congr' ?_
        filter_upwards [hle] with t ht
        rw [if_neg (not_lt.2 ((ht i).2 hi))]
      · simp only [if_neg hi]
        refine (h.ops.div one_lim (hf.scale i) (hf.ne i)).congr' ?_
        filter_upwards [hle] with t ht
        rw [if_pos (not_le.1 fun h => hi ((ht i).1 h))]
    · simp only [diagonal_apply_ne _ hij]
      exact tendsto_const_nhds
  set G : ι → Mat N := fun t => (ar t).ormqrT (f t).Q (f t).tau
    (diagonal fun i => if |(f t).d i| > 1.0 then (ar t).div 1.0 ((f t).d i) else 1.0) with hGdef
  have hG : MLim U G (Db₀ * Qᵀ) := h.ormqrT hf.refl hf.q hDbl
  have hTl : ∀ i j, Tendsto (fun t => if |(f t).d i| ≤ 1.0 then (ar t).mul ((f t).d i) ((f t).T i j) else (f t).T i j) U
      (𝓝 (Ds₀ i j)) := by
    intro i j
    simp only [hDs₀, of_apply]
    by_cases hi : le i = true
    · simp only [if_pos hi]
      refine (h.ops.mul (hf.scale i) (hf.tri i j)).congr' ?_
      filter_upwards [hle] with t ht
      rw [if_pos ((ht i).2 hi)]
    · simp only [if_neg hi]
      refine (hf.tri i j).congr' ?_
      filter_upwards [hle] with t ht
      rw [if_neg fun h => hi ((ht i).1 h)]
  set S : ι → Mat N := fun t => Matrix.of fun i j => (ar t).add
    ((Matrix.of fun i j => if |(f t).d i| ≤ 1.0 then (ar t).mul ((f t).d i) ((f t).T i j) else (f t).T i j : Mat N) i j) (G t i j)
    with hSdef
  have hS : MLim U S (Ds₀ + Db₀ * Qᵀ) := by
    intro i j
    rw [Matrix.add_apply]
    exact h.ops.add (hTl i j) (hG i j)
  have hdet1 := congrArg Matrix.det hsplit
  rw [det_mul, det_mul] at hdet1
  have hSdet : (Ds₀ + Db₀ * Qᵀ).det ≠ 0 := by
    intro h0
    rw [h0, mul_zero] at hdet1
    exact hne hdet1
  obtain ⟨hF, hX⟩ := h.solve hS hG hSdet
  refine ⟨fun t =>
    { mat := (ar t).getrs ((ar t).getrf (S t)).1 ((ar t).getrf (S t)).2 (G t)
      logdet := ((List.finRange N).foldl (detStepTau (f t).tau) ((List.finRange N).foldl (detStepD (ar t) (f t).d)
        ((List.finRange N).foldl (detStepU (ar t) ((ar t).getrf (S t)).1 ((ar t).getrf (S t)).2)
          { logdet := 0.0, sgndet := 1 }))).logdet
      sgndet := ((List.finRange N).foldl (detStepTau (f t).tau) ((List.finRange N).foldl (detStepD (ar t) (f t).d)
        ((List.finRange N).foldl (detStepU (ar t) ((ar t).getrf (S t)).1 ((ar t).getrf (S t)).2)
          { logdet := 0.0, sgndet := 1 }))).sgndet }, ?_, ?_, ?_⟩
  · filter_upwards [hF] with t ht
    unfold greenConstruct
    simp only
    exact if_neg (by rintro ⟨i, hi⟩; exact ht.1 i hi)
  · have hinv : (Ds₀ + Db₀ * Qᵀ)⁻¹ * (Db₀ * Qᵀ) = (1 + Q * diagonal d * T)⁻¹ := by
      have hG0inv : Db₀ * Qᵀ * (Q * Dbig) = 1 := by
        rw [Matrix.mul_assoc, ← Matrix.mul_assoc _ Q, hf.orth, Matrix.one_mul, hDb]
      rw [hsplit, Matrix.mul_inv_rev, inv_eq_left_inv hG0inv]
    rw [hinv] at hX
    exact hX
  · have hbig : Tendsto (fun t => ∏ i, if |(f t).d i| ≤ 1.0 then (1 : ℝ) else (f t).d i) U (𝓝 Dbig.det) := by
      rw [hDbig, det_diagonal]
      refine tendsto_finsetProd _ fun i _ => ?_
      by_cases hi : le i = true
      · simp only [if_pos hi]
        refine tendsto_const_nhds.congr' ?_
        filter_upwards [hle] with t ht
        rw [if_pos ((ht i).2 hi)]
      · simp only [if_neg hi]
        refine (hf.scale i).congr' ?_
        filter_upwards [hle] with t ht
        rw [if_neg fun h => hi ((ht i).1 h)]
    have hbig0 : Dbig.det ≠ 0 := by
      intro h0
      rw [h0, mul_zero, zero_mul] at hdet1
      exact hne hdet1
    filter_upwards [hF, hf.det, (hbig.mul_const Dbig.det).eventually (lt_mem_nhds (mul_self_pos.2 hbig0))] with t a b c
    have s1 := foldl_sign _ _ (detStepU_sign (ar t) ((ar t).getrf (S t)).1 ((ar t).getrf (S t)).2 a.1)
      { logdet := 0.0, sgndet := 1 } 1 SignOf.one
    have s2 := foldl_sign _ _ (detStepD_sign (ar t) (f t).d) _ _ s1
    have s3 := foldl_sign _ _ (detStepTau_sign (f t).tau) _ _ s2
    refine s3.of_mul_pos ?_
    rw [hdet1, ← b, one_mul, Finset.prod_mul_distrib]
    have hQ2 : 0 < Q.det * Q.det := by
      refine mul_self_pos.2 fun h0 => ?_
      rw [h0, zero_mul, zero_mul] at hdet1
      exact hne hdet1
    have := mul_pos (mul_pos a.2 c) hQ2
    refine this.trans_eq ?_
    ring

end limits

end Verif.Rounded
