import Verif.Lemmas.FirstOrder
import Verif.Model.RoundedTables
import Verif.Props.KineticExp
import Verif.Props.RoundedExists
import Verif.Props.StratonovichRound

/-! # Property C115: the tables computed in rounded arithmetic, and runs based on them -/

set_option autoImplicit false

namespace Verif.Rounded

open MeasureTheory Filter Topology Matrix Verif.Lapack Verif.TimeFlow Verif.Greens Verif.Stratonovich Verif.MonteCarlo Verif.Ultra
open Verif.Fock Verif.Measurement Verif.Main Verif.Progress Verif.Random Verif.Params Verif.Rough Verif.FirstOrder Verif.Mem

variable {N : ℕ}

/-! ## Specification -/

/-- the symmetric matrix given by the upper triangle -/
def symm (A : Mat N) : Mat N := Matrix.of fun i j => if i ≤ j then A i j else A j i

/-- Errors of at most `u`: the scalar operations and library functions are accurate in the relative sense, and the results of
`LAPACKE_dsyev` are close to those of an exact diagonalisation of a matrix close to the given one (LAPACK Users' Guide, section 4.7.1). -/
structure Platform.Within (pl : Platform N) (k : ℕ) (u : ℝ) : Prop where
  arith : pl.toArith.Within k u
  scalar : pl.scalar.Accurate u
  gemmT : ∀ b A B, 1 ≤ b → b * u ≤ 1 → Below b A → Below b B → Near (u * b ^ k) (pl.gemmT A B) (A * Bᵀ)
  syev : ∀ b A, 1 ≤ b → b * u ≤ 1 → Below b A → ∃ V : Mat N, Vᵀ * V = 1 ∧ Near (u * b ^ k) (pl.syev A).1 V ∧
    Near (u * b ^ k) (V * diagonal (pl.syev A).2 * Vᵀ) (symm A)

/-- The program in rounded arithmetic from the parameters to the results: as `Accurate`, for the tables which the program computes. -/
def AccurateRun {p : SimParams ℝ} [NeZero (sites p)] {σ M : Type} [MeasurableSpace σ] (P : Measure σ) (sys : Sys σ (sites p) M) (cfg : Cfg)
    (ms : Ops → Meas (sites p) M) (φ ψ : M → ℝ) (T : ℝ) : Prop :=
  ∀ (k : ℕ) (ε : ℝ), 0 < ε → ∃ u₀ K, 0 < u₀ ∧ 0 < K ∧
    ∀ (u : ℝ) (pl : Platform (sites p)) (n : ℕ), 0 ≤ u → pl.Within k u → 0 < n → (cfg.nequil.toNat + n) * u ≤ u₀ →
      ∃ tab, tables p pl = some tab ∧
        ∀ (s : ℕ → Fin (sites p) → Fin 2) (meas : M), φ meas = 0 → ψ meas = 0 → ∃ v, start pl.toArith sys cfg tab s meas = some v ∧
          ∀ pr : Prog, P.real {r | ¬ ∃ R, simLoop (roughBody (numerics pl.toArith sys cfg tab (ms pl.toOps)) sys.rng cfg.L)
              (fun _ => false) (cfg.nequil.toNat + n) 0 ⟨r, s, v⟩ pr = some R ∧
            |φ R.state.num.meas / ψ R.state.num.meas - T| < ε} ≤ K / n

/-! ## Operations -/

section ops

variable {ι : Type} {l : Filter ι} {u : ι → ℝ} {op : ι → Ops}

theorem lin_op {x y a b : ι → ℝ} (hu : Tendsto u l (𝓝 0)) (h0 : ∀ t, 0 ≤ u t) (hx : Lin l u x a) (hy : Lin l u y b)
    (ha : Bd l a) (hb : Bd l b) (f : ι → ℝ → ℝ → ℝ) (g : ℝ → ℝ → ℝ) (m : ℕ)
    (hf : ∀ t b x y, 1 ≤ b → b * u t ≤ 1 → |x| ≤ b → |y| ≤ b → |f t x y - g x y| ≤ u t * b ^ m) :
    Lin l u (fun t => f t (x t) (y t)) fun t => g (x t) (y t) := by
  obtain ⟨c, h1, hc⟩ := (hx.bd hu ha).common (hy.bd hu hb)
  refine Lin.of_le (c := c ^ m) ?_
  filter_upwards [hc, small hu c] with t h2 h3
  rw [abs_of_nonneg (h0 t), mul_comm]
  exact hf t c _ _ h1 h3 h2.1 h2.2

theorem lin_sub {x y a b : ι → ℝ} (hop : ∀ t, (op t).Within (u t)) (hu : Tendsto u l (𝓝 0)) (h0 : ∀ t, 0 ≤ u t)
    (hx : Lin l u x a) (hy : Lin l u y b) (ha : Bd l a) (hb : Bd l b) :
    Lin l u (fun t => (op t).sub (x t) (y t)) fun t => a t - b t :=
  (lin_op hu h0 hx hy ha hb (fun t => (op t).sub) (fun x y => x - y) 1 fun t b x y h1 h2 h3 h4 => by
    rw [pow_one]
    exact (hop t).sub b x y h1 h2 h3 h4).trans (hx.sub hy)

theorem lin_add {x y a b : ι → ℝ} (hop : ∀ t, (op t).Within (u t)) (hu : Tendsto u l (𝓝 0)) (h0 : ∀ t, 0 ≤ u t)
    (hx : Lin l u x a) (hy : Lin l u y b) (ha : Bd l a) (hb : Bd l b) :
    Lin l u (fun t => (op t).add (x t) (y t)) fun t => a t + b t :=
  (lin_op hu h0 hx hy ha hb (fun t => (op t).add) (fun x y => x + y) 1 fun t b x y h1 h2 h3 h4 => by
    rw [pow_one]
    exact (hop t).add b x y h1 h2 h3 h4).trans (hx.add hy)

theorem lin_mul {x y a b : ι → ℝ} (hop : ∀ t, (op t).Within (u t)) (hu : Tendsto u l (𝓝 0)) (h0 : ∀ t, 0 ≤ u t)
    (hx : Lin l u x a) (hy : Lin l u y b) (ha : Bd l a) (hb : Bd l b) :
    Lin l u (fun t => (op t).mul (x t) (y t)) fun t => a t * b t :=
  (lin_op hu h0 hx hy ha hb (fun t => (op t).mul) (fun x y => x * y) 2 fun t b x y h1 h2 h3 h4 =>
    (hop t).mul b x y h1 h2 h3 h4).trans (hx.mul hu hy ha hb)

/-! ## The hopping matrix -/

theorem subAll_lin (hop : ∀ t, (op t).Within (u t)) (hu : Tendsto u l (𝓝 0)) (h0 : ∀ t, 0 ≤ u t) (ws : List (ℤ × ℝ)) :
    ∀ (m : ι → ℤ → ℝ) (m₀ : ℤ → ℝ), (∀ z, Lin l u (fun t => m t z) fun _ => m₀ z) →
      ∀ z, Lin l u (fun t => subAll (op t) (m t) ws z) fun _ => addAll m₀ ws z := by
  induction ws with
  | nil => exact fun m m₀ h => h
  | cons w ws ih =>
    intro m m₀ h z
    refine ih (fun t => Function.update (m t) w.1 ((op t).sub (m t w.1) (-w.2))) (Function.update m₀ w.1 (m₀ w.1 + w.2)) (fun z => ?_) z
    by_cases hz : z = w.1
    · subst hz
      simp only [Function.update_self]
      have := lin_sub hop hu h0 (h w.1) (Lin.refl fun _ => -w.2) (Bd.const _) (Bd.const _)
      simpa only [sub_neg_eq_add] using this
    · simp only [Function.update_of_ne hz]
      exact h z

theorem assignAll_lin {β : Type} (is : List β) (f : β → ℤ) (x : ι → β → ℝ) (x₀ : β → ℝ)
    (hx : ∀ b, Lin l u (fun t => x t b) fun _ => x₀ b) :
    ∀ (m : ι → ℤ → ℝ) (m₀ : ℤ → ℝ), (∀ z, Lin l u (fun t => m t z) fun _ => m₀ z) →
      ∀ z, Lin l u (fun t => assignAll (m t) (is.map fun b => (f b, x t b)) z) fun _ => assignAll m₀ (is.map fun b => (f b, x₀ b)) z := by
  induction is with
  | nil => exact fun m m₀ h => h
  | cons b is ih =>
    intro m m₀ h z
    refine ih (fun t => Function.update (m t) (f b) (x t b)) (Function.update m₀ (f b) (x₀ b)) (fun z => ?_) z
    by_cases hz : z = f b
    · subst hz
      simp only [Function.update_self]
      exact hx b
    · simp only [Function.update_of_ne hz]
      exact h z

/-- the sites in the order of the loop over the diagonal -/
def diagList (Norb Nx Ny : ℕ) : List (ℕ × ℕ) := (List.range Norb).flatMap fun o => (List.range (Nx * Ny)).map fun i => (o, i)

/-- the index of a diagonal entry -/
def diagIdx (Norb Nx Ny : ℕ) (b : ℕ × ℕ) : ℤ :=
  (b.2 + b.1 * ((Nx * Ny : ℕ) : ℤ)) + ((Norb * (Nx * Ny) : ℕ) : ℤ) * (b.2 + b.1 * ((Nx * Ny : ℕ) : ℤ))

theorem diagWrites_map (op : Ops) (Norb Nx Ny : ℕ) (eps : ℤ → ℝ) (mu : ℝ) :
    diagWrites op Norb Nx Ny eps mu =
      (diagList Norb Nx Ny).map fun b => (diagIdx Norb Nx Ny b, op.add (-mu) (eps b.1)) := by
  unfold diagWrites diagList forLoop
  simp only [List.map_flatMap, List.map_map, Function.comp_def, diagIdx]
  refine List.flatMap_congr fun o _ => ?_
  rw [← List.flatMap_pure_eq_map]
  rfl

theorem kinetic_diagWrites_map (Norb Nx Ny : ℕ) (eps : ℤ → ℝ) (mu : ℝ) :
    Kinetic.diagWrites Norb Nx Ny eps mu = (diagList Norb Nx Ny).map fun b => (diagIdx Norb Nx Ny b, -mu + eps b.1) := by
  unfold Kinetic.diagWrites diagList forLoop
  simp only [List.map_flatMap, List.map_map, Function.comp_def, diagIdx]
  refine List.flatMap_congr fun o _ => ?_
  rw [← List.flatMap_pure_eq_map]
  rfl

theorem hopping_lin (hop : ∀ t, (op t).Within (u t)) (hu : Tendsto u l (𝓝 0)) (h0 : ∀ t, 0 ≤ u t) {Norb Nx Ny : ℕ} {shift : ℤ}
    {t : Hoppings ℝ} {eps : ℤ → ℝ} {mu : ℝ} {T₀ : ℤ → ℝ} (hT : Kinetic.hopping Norb Nx Ny shift t eps mu = some T₀) :
    ∃ T : ι → ℤ → ℝ, (∀ i, hopping (op i) Norb Nx Ny shift t eps mu = some (T i)) ∧ ∀ z, Lin l u (fun i => T i z) fun _ => T₀ z := by
  unfold Kinetic.hopping at hT
  simp only at hT
  split at hT
  · rename_i hc
    obtain rfl := Option.some.inj hT
    refine ⟨fun i => assignAll (subAll (op i) (fun _ => 0) (Kinetic.hopWrites Norb Nx Ny shift t)) (diagWrites (op i) Norb Nx Ny eps mu),
      fun i => ?_, fun z => ?_⟩
    · unfold hopping
      simp only
      rw [if_pos]
      refine ⟨hc.1, ?_⟩
      have h2 := hc.2
      rw [kinetic_diagWrites_map, List.all_map] at h2
      rw [diagWrites_map, List.all_map]
      exact h2
    · simp only [diagWrites_map, kinetic_diagWrites_map]
      refine assignAll_lin _ (diagIdx Norb Nx Ny) (fun i b => (op i).add (-mu) (eps b.1)) (fun b => -mu + eps b.1) (fun b => ?_) _ _
        (subAll_lin hop hu h0 _ _ _ fun z => Lin.refl _) z
      exact lin_add hop hu h0 (Lin.refl fun _ => -mu) (Lin.refl fun _ => eps b.1) (Bd.const _) (Bd.const _)
  · exact absurd hT (by simp)

end ops

/-! ## Exponentials -/

/-- the entries of an orthogonal matrix are at most 1 -/
theorem orthogonal_below {V : Mat N} (h : Vᵀ * V = 1) : Below 1 V := fun i j => by
  have h1 := congrFun (congrFun h j) j
  rw [Matrix.mul_apply, Matrix.one_apply_eq] at h1
  simp only [Matrix.transpose_apply] at h1
  have h2 : V i j * V i j ≤ ∑ k, V k j * V k j :=
    Finset.single_le_sum (f := fun k => V k j * V k j) (fun k _ => mul_self_nonneg _) (Finset.mem_univ i)
  rw [h1] at h2
  exact abs_le_one_iff_mul_self_le_one.2 h2

theorem exp_diagonalised {V : Mat N} (h : Vᵀ * V = 1) (w : Fin N → ℝ) :
    NormedSpace.exp (V * diagonal w * Vᵀ) = V * diagonal (fun i => Real.exp (w i)) * Vᵀ := by
  have hinv : V⁻¹ = Vᵀ := inv_eq_left_inv h
  have hunit : IsUnit V := by
    rw [isUnit_iff_isUnit_det]
    exact IsUnit.of_mul_eq_one _ (by rw [← det_mul, mul_eq_one_comm.1 h, det_one])
  rw [← hinv, Matrix.exp_conj _ _ hunit, Matrix.exp_diagonal]
  congr 3
  ext i
  rw [Pi.coe_exp, Real.exp_eq_exp_ℝ]

section exponential

variable [NeZero N] {ι : Type} {l : Filter ι} {u : ι → ℝ} {pl : ι → Platform N} {k : ℕ}

/-- `MatrixExp` of matrices close to a symmetric matrix -/
theorem matrixExp_lin (hpl : ∀ t, (pl t).Within k (u t)) (hu : Tendsto u l (𝓝 0)) (h0 : ∀ t, 0 ≤ u t) {A : ι → Mat N} {A₀ : Mat N}
    (hA : MLin l u A fun _ => A₀) (hS : A₀.IsSymm) : MLin l u (fun t => matrixExp (pl t) (A t)) fun _ => NormedSpace.exp A₀ := by
  classical
  have hop : ∀ t, (pl t).toOps.Within (u t) := fun t => (hpl t).arith.ops
  obtain ⟨b, h1, hb⟩ := hA.bd hu (MBd.const A₀)
  -- the exact diagonalisation
  let good : ι → Mat N → Prop := fun t V => Vᵀ * V = 1 ∧ Near (u t * b ^ k) ((pl t).syev (A t)).1 V ∧
    Near (u t * b ^ k) (V * diagonal ((pl t).syev (A t)).2 * Vᵀ) (symm (A t))
  have hex : ∀ᶠ t in l, ∃ V, good t V := by
    filter_upwards [hb, small hu b] with t h2 h3
    exact (hpl t).syev b (A t) h1 h3 h2
  let V : ι → Mat N := fun t => if h : ∃ V, good t V then h.choose else 1
  have hV : ∀ᶠ t in l, good t (V t) := by
    filter_upwards [hex] with t ht
    simp only [V, dif_pos ht]
    exact ht.choose_spec
  let U : ι → Mat N := fun t => ((pl t).syev (A t)).1
  let w : ι → Fin N → ℝ := fun t => ((pl t).syev (A t)).2
  have hU : MLin l u U V := MLin.of_near h0 (hV.mono fun t h => h.2.1)
  have hVb : MBd l V := ⟨1, le_refl 1, hV.mono fun t h => orthogonal_below h.1⟩
  let S : ι → Mat N := fun t => V t * diagonal (w t) * (V t)ᵀ
  have hS1 : MLin l u S fun t => symm (A t) := MLin.of_near h0 (hV.mono fun t h => h.2.2)
  have hS2 : MLin l u (fun t => symm (A t)) fun _ => A₀ := fun i j => by
    by_cases h : i ≤ j
    · simp only [symm, of_apply, if_pos h]
      exact hA i j
    · simp only [symm, of_apply, if_neg h]
      have := hA j i
      beta_reduce at this
      rwa [hS.apply i j] at this
  have hSA := hS1.trans hS2
  have hSb : MBd l S := hSA.bd hu (MBd.const A₀)
  -- the eigenvalues are bounded
  have hw : ∀ j, Bd l fun t => w t j := fun j => by
    obtain ⟨c, c1, hc⟩ := (mbd_iff.1 ((hVb.transpose.mul hSb).mul hVb)) j j
    refine ⟨c, c1, ?_⟩
    filter_upwards [hc, hV] with t h2 h3
    have e : (V t)ᵀ * S t * V t = diagonal (w t) := by
      show (V t)ᵀ * (V t * diagonal (w t) * (V t)ᵀ) * V t = _
      calc (V t)ᵀ * (V t * diagonal (w t) * (V t)ᵀ) * V t = ((V t)ᵀ * V t) * diagonal (w t) * ((V t)ᵀ * V t) := by
            simp only [Matrix.mul_assoc]
        _ = _ := by rw [h3.1, Matrix.one_mul, Matrix.mul_one]
    rw [e, diagonal_apply_eq] at h2
    exact h2
  have hew : ∀ j, Bd l fun t => Real.exp (w t j) := fun j => by
    obtain ⟨c, -, hc⟩ := hw j
    refine ⟨max 1 (Real.exp c), le_max_left _ _, hc.mono fun t ht => ?_⟩
    rw [abs_of_pos (Real.exp_pos _)]
    exact (Real.exp_le_exp.2 ((le_abs_self _).trans ht)).trans (le_max_right _ _)
  have he : ∀ j, Lin l u (fun t => (pl t).exp (w t j)) fun t => Real.exp (w t j) := fun j => by
    obtain ⟨c, -, hc⟩ := hew j
    refine Lin.of_le (c := c) (hc.mono fun t ht => ?_)
    have := (hpl t).scalar.exp (w t j)
    rw [abs_of_nonneg (h0 t), mul_comm]
    exact this.trans (mul_le_mul_of_nonneg_left ht (h0 t))
  -- the scaled eigenvectors
  let D : ι → Mat N := fun t => Matrix.of fun i j => (pl t).mul ((pl t).exp (w t j)) (U t i j)
  let D' : ι → Mat N := fun t => Matrix.of fun i j => Real.exp (w t j) * V t i j
  have hD : MLin l u D D' := fun i j => lin_mul hop hu h0 (he j) (hU i j) (hew j) (mbd_iff.1 hVb i j)
  have hD' : MBd l D' := mbd_iff.2 fun i j => (hew j).mul (mbd_iff.1 hVb i j)
  obtain ⟨c, c1, hc⟩ := (hD.bd hu hD').common (hU.bd hu hVb)
  have hg : MLin l u (fun t => (pl t).gemmT (D t) (U t)) fun t => D t * (U t)ᵀ := MLin.of_near (c := c ^ k) h0 (by
    filter_upwards [hc, small hu c] with t h2 h3
    exact (hpl t).gemmT c _ _ c1 h3 h2.1 h2.2)
  have hg2 : MLin l u (fun t => D t * (U t)ᵀ) fun t => D' t * (V t)ᵀ := hD.mul hu hU.transpose hD' hVb.transpose
  have hex2 : MLin l u (fun t => D' t * (V t)ᵀ) fun t => NormedSpace.exp (S t) := MLin.of_near (c := 0) h0 (hV.mono fun t h => by
    have e : D' t * (V t)ᵀ = NormedSpace.exp (S t) := by
      show _ = NormedSpace.exp (V t * diagonal (w t) * (V t)ᵀ)
      rw [exp_diagonalised h.1]
      congr 1
      ext i j
      rw [Matrix.mul_diagonal, mul_comm]
      rfl
    intro i j
    rw [e, sub_self, abs_zero, mul_zero])
  exact ((hg.trans hg2).trans hex2).trans (hSA.exp hu (MBd.const A₀))

omit [NeZero N] in
theorem near_of_lin (h0 : ∀ t, 0 ≤ u t) {A B : ι → Mat N} (h : MLin l u A B) : ∃ C, 0 ≤ C ∧ ∀ᶠ t in l, Near (C * u t) (A t) (B t) := by
  choose c hc using fun i j => (h i j).bound
  refine ⟨∑ i, ∑ j, |c i j|, Finset.sum_nonneg fun _ _ => Finset.sum_nonneg fun _ _ => abs_nonneg _, ?_⟩
  have := eventually_all.2 fun i => eventually_all.2 fun j => hc i j
  filter_upwards [this] with t ht i j
  have h1 := ht i j
  rw [Real.norm_eq_abs, Real.norm_eq_abs, abs_of_nonneg (h0 t)] at h1
  have h3 : |c i j| ≤ ∑ j, |c i j| := Finset.single_le_sum (f := fun j => |c i j|) (fun j _ => abs_nonneg _) (Finset.mem_univ j)
  have h4 : ∑ j, |c i j| ≤ ∑ i, ∑ j, |c i j| :=
    Finset.single_le_sum (f := fun i => ∑ j, |c i j|) (fun i _ => Finset.sum_nonneg fun j _ => abs_nonneg _) (Finset.mem_univ i)
  exact h1.trans (mul_le_mul_of_nonneg_right ((le_abs_self _).trans (h3.trans h4)) (h0 t))

end exponential

/-- the kinetic exponentials have errors of first order -/
theorem kinetic_close {Norb Nx Ny : ℕ} [NeZero (Norb * (Nx * Ny))] (hx : 0 < Nx) (hy : 0 < Ny) {shift : ℤ} (hs : 0 ≤ shift)
    (t : Hoppings ℝ) (eps : ℤ → ℝ) (mu dt : ℝ) (es : Kinetic.Eigensolver (Norb * (Nx * Ny))) (k : ℕ) :
    ∃ K, Kinetic.kineticExponential Norb Nx Ny shift t eps mu dt es = some K ∧ ∃ C δ, 0 ≤ C ∧ 0 < δ ∧
      ∀ (u : ℝ) (pl : Platform (Norb * (Nx * Ny))), 0 ≤ u → u < δ → pl.Within k u →
        ∃ R, kineticExponential Norb Nx Ny shift t eps mu dt pl = some R ∧ Near (C * u) R.expK K.expK ∧ Near (C * u) R.invExpK K.invExpK := by
  obtain ⟨T₀, K, hT, hK, e1, e2, -⟩ := Kinetic.kinetic_exponentials Norb Nx Ny hx hy shift hs t eps mu dt es
  have hsym : (Kinetic.toMatrix (Norb * (Nx * Ny)) T₀).IsSymm := by
    obtain ⟨T', hT', hsym, -, -⟩ := Kinetic.hopping_spec Norb Nx Ny hx hy shift hs t eps mu
    obtain rfl := Option.some.inj (hT'.symm.trans hT)
    exact Kinetic.toMatrix_symm_of _ _ hsym
  refine ⟨K, hK, ?_⟩
  let ι := {q : Platform (Norb * (Nx * Ny)) × ℝ // 0 ≤ q.2 ∧ q.1.Within k q.2}
  let u : ι → ℝ := fun q => q.1.2
  let pl : ι → Platform (Norb * (Nx * Ny)) := fun q => q.1.1
  let l : Filter ι := comap u (𝓝 0)
  have hu : Tendsto u l (𝓝 0) := tendsto_comap
  have h0 : ∀ q, 0 ≤ u q := fun q => q.2.1
  have hpl : ∀ q, (pl q).Within k (u q) := fun q => q.2.2
  have hop : ∀ q, (pl q).toOps.Within (u q) := fun q => (hpl q).arith.ops
  obtain ⟨T, hTe, hTl⟩ := hopping_lin hop hu h0 hT
  have h1 : ∀ z, Lin l u (fun q => (pl q).mul (-dt) (T q z)) fun _ => -dt * T₀ z := fun z =>
    lin_mul hop hu h0 (Lin.refl fun _ => -dt) (hTl z) (Bd.const _) (Bd.const _)
  have h2 : ∀ z, Lin l u (fun q => (pl q).mul (-1) ((pl q).mul (-dt) (T q z))) fun _ => -1 * (-dt * T₀ z) := fun z =>
    lin_mul hop hu h0 (Lin.refl fun _ => -1) (h1 z) (Bd.const _) (Bd.const _)
  have m1 : MLin l u (fun q => Kinetic.toMatrix (Norb * (Nx * Ny)) fun z => (pl q).mul (-dt) (T q z))
      fun _ => -dt • Kinetic.toMatrix (Norb * (Nx * Ny)) T₀ := fun i j => h1 _
  have m2 : MLin l u (fun q => Kinetic.toMatrix (Norb * (Nx * Ny)) fun z => (pl q).mul (-1) ((pl q).mul (-dt) (T q z)))
      fun _ => dt • Kinetic.toMatrix (Norb * (Nx * Ny)) T₀ := fun i j => by
    have := h2 ((i : ℕ) + (j : ℕ) * ((Norb * (Nx * Ny) : ℕ) : ℤ))
    rw [show ∀ x : ℝ, -1 * (-dt * x) = dt * x from fun x => by ring] at this
    exact this
  obtain ⟨C1, c1, n1⟩ := near_of_lin h0 (matrixExp_lin hpl hu h0 m1 (hsym.smul _))
  obtain ⟨C2, c2, n2⟩ := near_of_lin h0 (matrixExp_lin hpl hu h0 m2 (hsym.smul _))
  obtain ⟨δ, hδ, hd⟩ := Metric.eventually_nhds_iff.1 (eventually_comap.1 (n1.and n2))
  refine ⟨max C1 C2, δ, le_max_of_le_left c1, hδ, fun v P hv hvδ hP => ?_⟩
  let q : ι := ⟨(P, v), hv, hP⟩
  obtain ⟨a1, a2⟩ := hd (y := v) (by rwa [Real.dist_eq, sub_zero, abs_of_nonneg hv]) q rfl
  refine ⟨_, by rw [kineticExponential, hTe q, Option.map_some], ?_, ?_⟩
  · rw [e1]
    exact Near.mono a1 (mul_le_mul_of_nonneg_right (le_max_left _ _) hv)
  · rw [e2]
    exact Near.mono a2 (mul_le_mul_of_nonneg_right (le_max_right _ _) hv)

section program

variable {p : SimParams ℝ} {mc : Machine} {σ : Type} [MeasurableSpace σ] {P : Measure σ}

omit [MeasurableSpace σ] in
/-- the tables of the program have errors of first order -/
theorem tables_close [NeZero (sites p)] (hv : Admissible p) (hg : Guards p) (rng : Rng σ) (sys : Sys Seed (sites p) MeasData)
    (hsys : sysOf mc p = some sys) (k : ℕ) :
    ∃ C δ, 1 ≤ C ∧ 0 < δ ∧ ∀ (u : ℝ) (pl : Platform (sites p)), 0 ≤ u → u < δ → pl.Within k u →
      ∃ tab, tables p pl = some tab ∧ tab.Within (sys.withRng rng) (C * u) := by
  have h1 := hv.norb
  have h2 := hv.nx
  have h3 := hv.ny
  have : NeZero (p.Norb.toNat * (p.Nx.toNat * p.Ny.toNat)) := inferInstanceAs (NeZero (sites p))
  obtain ⟨K, hK, C, δ, hC, hδ, hk⟩ := kinetic_close (Norb := p.Norb.toNat) (Nx := p.Nx.toNat) (Ny := p.Ny.toNat) (by omega) (by omega)
    hg.shift p.t p.eps p.mu p.dt (mc.es _) k
  unfold sysOf at hsys
  simp only [Option.bind_eq_bind] at hsys
  obtain ⟨K', hK', hsys⟩ := Option.bind_eq_some_iff.1 hsys
  obtain ⟨hs, hhs, hsys⟩ := Option.bind_eq_some_iff.1 hsys
  obtain rfl := Option.some.inj (hK'.symm.trans hK)
  obtain rfl := Option.some.inj hsys
  let B : ℕ → ℝ := fun o => 1 + ∑ v, |hs.expVu v o| + ∑ v, |hs.expVd v o| + |hs.delta 0 o|
  let E : ℕ → ℝ := fun o => (14 + 3 * (p.dt * p.U o)) * B o
  have hU : ∀ o < p.Norb.toNat, 0 ≤ p.dt * p.U o := fun o ho => hg.U o (by omega)
  have su : ∀ o, 0 ≤ ∑ v, |hs.expVu v o| := fun o => Finset.sum_nonneg fun _ _ => abs_nonneg _
  have sd : ∀ o, 0 ≤ ∑ v, |hs.expVd v o| := fun o => Finset.sum_nonneg fun _ _ => abs_nonneg _
  have hB : ∀ o, 1 ≤ B o := fun o => by
    have := abs_nonneg (hs.delta 0 o)
    have := su o
    have := sd o
    show 1 ≤ 1 + ∑ v, |hs.expVu v o| + ∑ v, |hs.expVd v o| + |hs.delta 0 o|
    linarith
  have hE0 : ∀ o ∈ Finset.range p.Norb.toNat, 0 ≤ E o := fun o ho => by
    have h1 := hU o (Finset.mem_range.1 ho)
    have h2 := hB o
    show 0 ≤ (14 + 3 * (p.dt * p.U o)) * B o
    positivity
  have hEle : ∀ o < p.Norb.toNat, E o ≤ ∑ o ∈ Finset.range p.Norb.toNat, E o := fun o ho =>
    Finset.single_le_sum hE0 (Finset.mem_range.2 ho)
  have hUle : ∀ o < p.Norb.toNat, p.dt * p.U o ≤ ∑ o ∈ Finset.range p.Norb.toNat, p.dt * p.U o := fun o ho =>
    Finset.single_le_sum (f := fun o : ℕ => p.dt * p.U o) (fun o ho => hU o (Finset.mem_range.1 ho)) (Finset.mem_range.2 ho)
  have hUs : 0 ≤ ∑ o ∈ Finset.range p.Norb.toNat, p.dt * p.U o := Finset.sum_nonneg fun o ho => hU o (Finset.mem_range.1 ho)
  have hEs : 0 ≤ ∑ o ∈ Finset.range p.Norb.toNat, E o := Finset.sum_nonneg hE0
  generalize hSE : ∑ o ∈ Finset.range p.Norb.toNat, E o = SE at hEle hEs
  generalize ∑ o ∈ Finset.range p.Norb.toNat, p.dt * p.U o = SU at hUle hUs
  refine ⟨1 + C + SE, min δ (1 / (200 * (1 + SU))), by linarith, lt_min hδ (by positivity), fun u pl hu huδ hpl => ?_⟩
  have hu1 : u < δ := huδ.trans_le (min_le_left _ _)
  have hu2 : u * (200 * (1 + SU)) < 1 := by
    have := huδ.trans_le (min_le_right _ _)
    rwa [lt_div_iff₀ (by positivity)] at this
  have hu3 : u ≤ 1 / 200 := by nlinarith [mul_nonneg hu hUs]
  obtain ⟨R, hR, r1, r2⟩ := hk u pl hu hu1 hpl
  obtain ⟨h, q, hh, hq, hc⟩ := fill_accurate (Norb := p.Norb.toNat) (U := fun o => p.U o) hpl.scalar hu hu3 hU (fun o ho => by
    have := mul_le_mul_of_nonneg_right (hUle o ho) hu
    nlinarith)
  obtain rfl := Option.some.inj (hq.symm.trans hhs)
  have hm : C * u ≤ (1 + C + SE) * u := mul_le_mul_of_nonneg_right (by linarith) hu
  have ho : ∀ i : Fin (sites p), i.val / (p.Nx.toNat * p.Ny.toNat) < p.Norb.toNat := fun i =>
    Nat.div_lt_of_lt_mul (by rw [Nat.mul_comm]; exact i.2)
  have key : ∀ o < p.Norb.toNat, ∀ e x : ℝ, 0 ≤ x → x ≤ B o → e ≤ (14 + 3 * (p.dt * p.U o)) * u * x → e ≤ (1 + C + SE) * u :=
    fun o ho e x hx hxB he => by
      have h1 := hU o ho
      have h2 : (14 + 3 * (p.dt * p.U o)) * u * x ≤ (14 + 3 * (p.dt * p.U o)) * u * B o :=
        mul_le_mul_of_nonneg_left hxB (by positivity)
      have h3 : (14 + 3 * (p.dt * p.U o)) * u * B o = E o * u := by
        show _ = (14 + 3 * (p.dt * p.U o)) * B o * u
        ring
      have h4 := mul_le_mul_of_nonneg_right (hEle o ho) hu
      have h5 : SE * u ≤ (1 + C + SE) * u := mul_le_mul_of_nonneg_right (by linarith) hu
      linarith
  have up : ∀ o < p.Norb.toNat, ∀ c x : ℝ, 0 ≤ x → c ≤ 14 → (c + 3 * (p.dt * p.U o)) * u * x ≤ (14 + 3 * (p.dt * p.U o)) * u * x :=
    fun o ho c x hx hc => mul_le_mul_of_nonneg_right (mul_le_mul_of_nonneg_right (by linarith) hu) hx
  refine ⟨⟨R.expK, R.invExpK, h⟩, ?_, Near.mono r1 hm, Near.mono r2 hm, fun v i => ?_, fun v i => ?_, fun v i => ?_⟩
  · unfold tables
    simp only [hR, hh, Option.bind_eq_bind, Option.bind_some]
    rfl
  · set o := i.val / (p.Nx.toNat * p.Ny.toNat) with hoo
    have hb : |q.expVu v o| ≤ B o := by
      have h1 : |q.expVu v o| ≤ ∑ v, |q.expVu v o| :=
        Finset.single_le_sum (f := fun v => |q.expVu v o|) (fun _ _ => abs_nonneg _) (Finset.mem_univ v)
      have := abs_nonneg (q.delta 0 o)
      have := sd o
      show _ ≤ 1 + ∑ v, |q.expVu v o| + ∑ v, |q.expVd v o| + |q.delta 0 o|
      linarith
    exact key o (ho i) _ _ (abs_nonneg _) hb (((hc o (ho i)).1 v).trans (up o (ho i) _ _ (abs_nonneg _) (by norm_num)))
  · set o := i.val / (p.Nx.toNat * p.Ny.toNat) with hoo
    have hb : |q.expVd v o| ≤ B o := by
      have h1 : |q.expVd v o| ≤ ∑ v, |q.expVd v o| :=
        Finset.single_le_sum (f := fun v => |q.expVd v o|) (fun _ _ => abs_nonneg _) (Finset.mem_univ v)
      have := abs_nonneg (q.delta 0 o)
      have := su o
      show _ ≤ 1 + ∑ v, |q.expVu v o| + ∑ v, |q.expVd v o| + |q.delta 0 o|
      linarith
    exact key o (ho i) _ _ (abs_nonneg _) hb (((hc o (ho i)).2.1 v).trans (up o (ho i) _ _ (abs_nonneg _) (by norm_num)))
  · set o := i.val / (p.Nx.toNat * p.Ny.toNat) with hoo
    show |h.delta v o - q.delta v o| ≤ _
    fin_cases v
    · have hb : |q.delta 0 o| ≤ B o := by
        have := su o
        have := sd o
        show _ ≤ 1 + ∑ v, |q.expVu v o| + ∑ v, |q.expVd v o| + |q.delta 0 o|
        linarith
      exact key o (ho i) _ _ (abs_nonneg _) hb (((hc o (ho i)).2.2.1).trans (up o (ho i) _ _ (abs_nonneg _) (by norm_num)))
    · refine key o (ho i) _ 1 zero_le_one (hB o) ?_
      rw [mul_one]
      exact (hc o (ho i)).2.2.2

/-- accuracy of a run with the tables of the program -/
theorem Accurate.run [NeZero (sites p)] (hv : Admissible p) (hg : Guards p) (rng : Rng σ) (sys : Sys Seed (sites p) MeasData)
    (hsys : sysOf mc p = some sys) {cfg : Cfg} {ms : Ops → Meas (sites p) MeasData} {φ ψ : MeasData → ℝ} {T : ℝ}
    (h : Accurate P (sys.withRng rng) cfg ms φ ψ T) : AccurateRun P (sys.withRng rng) cfg ms φ ψ T := by
  intro k ε hε
  obtain ⟨u₀, K, h0, hK, ha⟩ := h k ε hε
  obtain ⟨C, δ, hC, hδ, ht⟩ := tables_close hv hg rng sys hsys k
  have hC0 : 0 < C := by linarith
  refine ⟨min (u₀ / C) (δ / 2), K, lt_min (by positivity) (by positivity), hK, fun u pl n hu hpl hn hle => ?_⟩
  have hn1 : (1 : ℝ) ≤ n := by exact_mod_cast hn
  have hnq : (0 : ℝ) ≤ (cfg.nequil.toNat : ℝ) := Nat.cast_nonneg _
  have h1 : u ≤ (cfg.nequil.toNat + n) * u := le_mul_of_one_le_left hu (by linarith)
  have h2 : u < δ := by linarith [h1.trans (hle.trans (min_le_right _ _))]
  have h3 : (cfg.nequil.toNat + n) * (C * u) ≤ u₀ := by
    have := hle.trans (min_le_left _ _)
    rw [le_div_iff₀ hC0] at this
    linarith [show (cfg.nequil.toNat + n) * (C * u) = (cfg.nequil.toNat + n) * u * C by ring]
  obtain ⟨tab, e, hw⟩ := ht u pl hu h2 hpl
  refine ⟨tab, e, ha (C * u) pl.toArith tab n (by positivity) (hpl.arith.mono (le_mul_of_one_le_left hu hC)) hw hn h3⟩

/-- **C115**: the program in rounded arithmetic, from the parameters to the results -/
theorem program_rounded_run [NeZero (sites p)] (hmc : mc.Rounds) (hv : Admissible p) (hg : Guards p)
    (hN : sites p < 2 ^ 31) (fnbase : String) (rng : Rng σ) (hlaw : rng.Lawful (sites p))
    (hP : rng.Ideal (sites p) P) (sys : Sys Seed (sites p) MeasData) (hsys : sysOf mc p = some sys)
    (hw : ∀ s, sys.weight p.L.toNat s (fun _ _ => 1) ≠ 0)
    (hr : ∀ i : Fin (sites p), p.U ((i.val / (p.Nx.toNat * p.Ny.toNat) : ℕ) : ℤ) = 0 ∨
      ∀ l < p.L.toNat, ∀ x : Field p.L.toNat (sites p),
        sys.weight p.L.toNat (Fock.extend (flipAt l i x)) (fun _ _ => 1)
          ≠ sys.weight p.L.toNat (Fock.extend x) (fun _ _ => 1))
    (hnq : 0 ≤ p.nequil) (hnw : p.nwraps ≤ p.L) (hc : 0 < p.neqlt) (hcL : p.neqlt ≤ p.L) (hun : p.nuneqlt ≤ 0) :
    EqHolds p.Nx.toNat p.Ny.toNat p.Norb.toNat p.pbcShift 0 (thermalMean (hubbardStep p) p.L.toNat) fun f z v =>
      AccurateRun P (sys.withRng rng) (mkSetup mc p fnbase).cfg (fun op => roundMeas op p.Norb.toNat (p.Nx.toNat * p.Ny.toNat)
        (Maps.construct p.Nx.toNat p.Ny.toNat p.pbcShift mc.maps) sys.meas) (fun m => m.eq.arr f z) (fun m => m.eq.sign) v :=
  (program_rounded hmc hv hg hN fnbase rng hlaw hP sys hsys hw hr hnq hnw hc hcL hun).mono fun _ _ _ h => h.run hv hg rng sys hsys

end program

/-! ## Non-vacuity -/

/-- rounding after every operation and library function, and exact BLAS and LAPACK -/
theorem platform_exists (k : ℕ) {u : ℝ} (hu : 0 ≤ u) {fl : ℝ → ℝ} (h : ∀ x, |fl x - x| ≤ u / 2 * |x|) :
    ∃ pl : Platform N, pl.toOps = flOps fl ∧ pl.Within k u := by
  obtain ⟨ar, e, hw⟩ := exact_lapack (N := N) (flOps fl)
  obtain ⟨es⟩ := Kinetic.eigensolver_exists N
  let pl : Platform N :=
    { ar with
      sqrt := fun x => fl (Real.sqrt x)
      exp := fun x => fl (Real.exp x)
      expm1 := fun x => fl (Real.exp x - 1)
      gemmT := fun A B => A * Bᵀ
      syev := es.run }
  have near : ∀ (b : ℝ) (A : Mat N), 1 ≤ b → Near (u * b ^ k) A A := fun b A hb i j => by
    rw [sub_self, abs_zero]
    positivity
  have hf : ∀ x, |fl x - x| ≤ u * |x| := fun x => (h x).trans (mul_le_mul_of_nonneg_right (by linarith) (abs_nonneg _))
  have hs : pl.scalar = ⟨(flOps fl).add, (flOps fl).sub, (flOps fl).mul, (flOps fl).div, fun x => fl (Real.sqrt x),
      fun x => fl (Real.exp x), fun x => fl (Real.exp x - 1)⟩ := by
    show (⟨ar.toOps.add, ar.toOps.sub, ar.toOps.mul, ar.toOps.div, _, _, _⟩ : Stratonovich.Arith) = _
    rw [e]
  refine ⟨pl, e, hw k u hu ?_, ?_, fun b A B hb _ _ _ => near b _ hb, fun b A hb _ _ =>
    ⟨_, es.orthonormal A, near b _ hb, ?_⟩⟩
  · have := flOps_within h (by linarith)
    rwa [show 2 * (u / 2) = u by ring] at this
  · rw [hs]
    exact ⟨fun x y => hf _, fun x y => hf _, fun x y => hf _, fun x y => hf _, fun x => hf _, fun x => hf _, fun x => hf _⟩
  · have := es.diagonalises A
    show Near _ ((es.run A).1 * diagonal (es.run A).2 * (es.run A).1ᵀ) (symm A)
    rw [← this]
    exact near b _ hb

/-- the density of a site with interaction is computed accurately from the parameters -/
example : ∃ mc : Machine, ∃ sys : Sys Seed (sites exR) MeasData, mc.Rounds ∧ sysOf mc exR = some sys ∧
    ∃ T, AccurateRun (independent (drawDist (sites exR))) (sys.withRng (idealRng (sites exR))) (mkSetup mc exR "").cfg
      (fun op => roundMeas op exR.Norb.toNat (exR.Nx.toNat * exR.Ny.toNat)
        (Maps.construct exR.Nx.toNat exR.Ny.toNat exR.pbcShift mc.maps) sys.meas)
      (fun m => m.eq.arr .densityU 0) (fun m => m.eq.sign) T := by
  obtain ⟨mc, hmc⟩ := machine_exists
  obtain ⟨sys, hsys, hok, -⟩ := sys_defined hmc exR_admissible exR_guards.U exR_guards.shift (by decide) ""
  have hdiag : ∀ i j, i ≠ j → bondMatrix exR i j = 0 := fun i j h => absurd (Subsingleton.elim (α := Fin 1) i j) h
  obtain ⟨ho, hD⟩ := program_describes exR_admissible exR_guards sys hsys
  obtain ⟨-, hr⟩ := atomic_conditions exR_admissible exR_guards hdiag (by decide) sys hsys
  refine ⟨mc, sys, hmc, hsys, _, (program_rounded_run hmc exR_admissible exR_guards (by decide) "" _ (idealRng_lawful _)
    (idealRng_ideal _) sys hsys
    (fun s => weight_one_site hmc exR_admissible exR_guards rfl sys hsys _ s _ fun _ _ => one_pos) (fun i => ?_)
    (by decide) (by decide) (by decide) (by decide) (by decide)).dens .densityU (by simp) 0 (by decide)⟩
  rcases hr i with h | h
  · left
    rw [← ho i]
    exact (decoupled_iff hD (by norm_num [exR, exU, exP]) i).1 h
  · exact Or.inr h

end Verif.Rounded
