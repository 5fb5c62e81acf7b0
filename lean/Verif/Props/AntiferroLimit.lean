import Verif.Props.Antiferro
import Mathlib.Analysis.Analytic.IsolatedZeros
import Mathlib.Analysis.Normed.Algebra.Exponential

/-!
# Property C122 for expectation values

The expectation values in a half filled system on two sublattices have the signs of antiferromagnetism, for any number of time
slices and in the limit of many time slices.  No condition on the weights is needed: a small change of the hopping makes them
different from zero.
-/

set_option autoImplicit false

namespace Verif.MonteCarlo

open Matrix Filter Topology Verif.Lapack Verif.TimeFlow Verif.Fock Verif.Measurement Verif.Lattice Verif.Trotter
open Verif.Main Verif.Params Verif.Random Verif.Stratonovich

/-! ## Specification -/

/-- expectation values of operators at two times in a system with the sublattices `η` -/
structure AntiferroMeans {N : ℕ} (η : Fin N → ℝ) (T : Op (Mode N) → Op (Mode N) → ℝ) : Prop where
  /-- spins of sites of the same sublattice are parallel, of different sublattices antiparallel -/
  spinZ : ∀ a b, 0 ≤ η a * η b * T (opOf (zOp a)) (opOf (zOp b))
  spinX : ∀ a b, 0 ≤ η a * η b * T (opOf (xOp a)) (opOf (xOp b))
  /-- charges are correlated like pairs -/
  charge : ∀ a b, T (opOf (nOp true a ++ nOp false a)) (opOf (nOp true b ++ nOp false b)) - 1
    = 2 * (η a * η b) * T (ann (a, true) * ann (a, false)) (ann (b, true) * ann (b, false))ᵀ

/-- the same for the results of equal time measurements; `R f z v` says that `v` belongs to the entry `z` of the array `f` -/
structure AntiferroResults (col : Coloring) (Nx Ny Norb : ℕ) (s : ℤ) (R : EqF → ℤ → ℝ → Prop) : Prop where
  spin : ∀ o p : ℕ, o < Norb → p < Norb → ∀ dx dy : ℤ, ∃ v,
    R .zz (cellOf Nx Ny s dx dy + (Nx * Ny : ℕ) * (o + Norb * p)) v ∧
    R .xx (cellOf Nx Ny s dx dy + (Nx * Ny : ℕ) * (o + Norb * p)) v ∧ 0 ≤ relSign col o p dx dy * v
  doubleocc : ∀ o : ℕ, o < Norb → ∃ v, R .doubleocc o v ∧ v ≤ 1 / 4

/-- the same for the unequal time measurements -/
structure UneqAntiferroResults (col : Coloring) (Nx Ny Norb L : ℕ) (s : ℤ) (R : UneqF → ℤ → ℝ → Prop) : Prop where
  spin : ∀ l o p : ℕ, l < L → o < Norb → p < Norb → ∀ dx dy : ℤ, ∃ v,
    R .zz (cellOf Nx Ny s dx dy + (Nx * Ny : ℕ) * (o + Norb * p + Norb * Norb * l)) v ∧
    R .xx (cellOf Nx Ny s dx dy + (Nx * Ny : ℕ) * (o + Norb * p + Norb * Norb * l)) v ∧ 0 ≤ relSign col o p dx dy * v
  charge : ∀ l o : ℕ, l < L → o < Norb → ∀ dx dy : ℤ, ∃ v,
    R .nn (cellOf Nx Ny s dx dy + (Nx * Ny : ℕ) * (o + Norb * o + Norb * Norb * l)) (1 + 2 * relSign col o o dx dy * v) ∧
    R .scSw (cellOf Nx Ny s dx dy + (Nx * Ny : ℕ) * (o + Norb * l)) v

/-! ## Changes of the hopping -/

section scaled

attribute [local instance] Matrix.linftyOpNormedRing Matrix.linftyOpNormedAlgebra

variable {σ M : Type} {N : ℕ} {sys : Sys σ N M} {Norb : ℕ} {K : Mat N} {U : ℕ → ℝ} {dt : ℝ} {η : Fin N → ℝ}

/-- the system with the hopping multiplied by `t` -/
noncomputable def Sys.scaled (sys : Sys σ N M) (K : Mat N) (dt t : ℝ) : Sys σ N M :=
  { sys with expK := NormedSpace.exp (-dt • (t • K)), invExpK := NormedSpace.exp (dt • (t • K)) }

theorem scaled_describes (h : Describes sys Norb K U dt) (t : ℝ) : Describes (sys.scaled K dt t) Norb (t • K) U dt :=
  ⟨h.nonneg, h.orb, h.hs, rfl⟩

theorem scaled_particleHole (hη : ∀ i, η i * η i = 1) (hK : K.IsSymm) (hb : ∀ i j, K i j ≠ 0 → η i * η j = -1) (t : ℝ) :
    ParticleHole (sys.scaled K dt t) η := by
  have hs : ∀ r : ℝ, (r • (t • K)).IsSymm := fun r => (hK.smul t).smul r
  refine particleHole_of_kinetic η hη (t • K) dt (fun i j h => hb i j fun h0 => h ?_) rfl rfl ?_ (exp_posDef (hs _)) ?_
  · rw [Matrix.smul_apply, h0, smul_zero]
  · show NormedSpace.exp (-dt • (t • K)) * NormedSpace.exp (dt • (t • K)) = 1
    rw [← Matrix.exp_add_of_commute _ _ ((Commute.refl (t • K)).smul_left _ |>.smul_right _), ← add_smul, neg_add_cancel, zero_smul,
      NormedSpace.exp_zero]
  · show (NormedSpace.exp (-dt • (t • K)))ᵀ = _
    rw [← Matrix.exp_transpose, (hs _).eq]
    rfl

theorem det_analytic {f : ℝ → Mat N} {z : ℝ} (h : AnalyticAt ℝ f z) : AnalyticAt ℝ (fun t => (f t).det) z := by
  have he : ∀ i j, AnalyticAt ℝ (fun t => f t i j) z := by
    intro i j
    let φ : Mat N →ₗ[ℝ] ℝ := Matrix.entryLinearMap ℝ ℝ i j
    exact (LinearMap.toContinuousLinearMap φ).analyticAt _ |>.comp h
  simp only [Matrix.det_apply]
  refine Finset.analyticAt_fun_sum _ fun g _ => ?_
  simp only [Units.smul_def, zsmul_eq_mul]
  exact analyticAt_const.mul (Finset.analyticAt_fun_prod _ fun i _ => he _ _)

theorem expK_analytic (K : Mat N) (dt z : ℝ) : AnalyticAt ℝ (fun t : ℝ => NormedSpace.exp (-dt • (t • K))) z := by
  have h1 : AnalyticAt ℝ (fun t : ℝ => -dt • (t • K)) z := by fun_prop
  exact (NormedSpace.exp_analytic (𝕂 := ℝ) _).comp h1

theorem prod_analytic {A : ℝ → Mat N} {z : ℝ} (hA : AnalyticAt ℝ A z) (d : ℕ → Mat N) (n : ℕ) :
    AnalyticAt ℝ (fun t => prodSeq (fun k => d k * A t) n) z := by
  induction n with
  | zero => exact analyticAt_const
  | succ n ih =>
    have h2 : AnalyticAt ℝ (fun t => d n * A t) z := AnalyticAt.fun_mul (f := fun _ => d n) analyticAt_const hA
    exact h2.fun_mul ih

theorem det_flow_analytic (sys : Sys σ N M) (K : Mat N) (dt : ℝ) (L : ℕ) (s : ℕ → Fin N → Fin 2) (z : ℝ) (expV : Fin 2 → ℕ → ℝ) :
    AnalyticAt ℝ (fun t => (1 + (sys.scaled K dt t).flow expV L s fun _ _ => 1).det) z := by
  have e : (fun t => (1 + (sys.scaled K dt t).flow expV L s fun _ _ => 1).det) = fun t => (1 + prodSeq
      (fun k => (diagonal fun i => expV (s ((0 + k) % L) i) (sys.orb i) * 1) * NormedSpace.exp (-dt • (t • K))) L).det := rfl
  rw [e]
  exact det_analytic (AnalyticAt.fun_add (f := fun _ => (1 : Mat N)) analyticAt_const (prod_analytic (expK_analytic K dt z) _ L))

theorem signed_analytic (sys : Sys σ N M) (K : Mat N) (dt : ℝ) (L : ℕ) (s : ℕ → Fin N → Fin 2) (z : ℝ) :
    AnalyticAt ℝ (fun t => signed (sys.scaled K dt t) L s fun _ _ => 1) z := by
  unfold signed
  exact (det_flow_analytic sys K dt L s z sys.hs.expVu).fun_mul (det_flow_analytic sys K dt L s z sys.hs.expVd)

/-- without hopping the weights do not vanish -/
theorem scaled_zero (h : Describes sys Norb K U dt) (L : ℕ) (x : Field L N) :
    signed (sys.scaled K dt 0) L (Fock.extend x) (fun _ _ => 1) ≠ 0 := by
  have hD := scaled_describes h 0
  have hc : ∀ i, Consistent (sys.scaled K dt 0).hs ((sys.scaled K dt 0).orb i) := fun i =>
    fill_consistent _ _ _ _ hD.hs _ (hD.orb i)
  have hK : (sys.scaled K dt 0).expK = Matrix.diagonal fun _ => 1 := by
    show NormedSpace.exp (-dt • ((0 : ℝ) • K)) = _
    rw [zero_smul, smul_zero, NormedSpace.exp_zero, Matrix.diagonal_one]
  have hw : (sys.scaled K dt 0).weight L (Fock.extend x) (fun _ _ => 1) ≠ 0 := by
    rw [weight_atomic hK]
    refine Finset.prod_ne_zero_iff.2 fun i _ => ?_
    rw [siteProd_up hc, siteProd_down hc]
    have h1 := zpow_pos ((hc i).pos 1).1 (∑ k, fieldSign (x k i))
    have h2 := zpow_pos ((hc i).pos 1).1 (-∑ k, fieldSign (x k i))
    refine (abs_pos.2 (mul_pos ?_ ?_).ne').ne' <;> positivity
  rw [weight_eq, abs_ne_zero] at hw
  exact hw

/-- all weights differ from zero after a small change of the hopping -/
theorem generic_weights (h : Describes sys Norb K U dt) (L : ℕ) :
    ∀ᶠ t in 𝓝[≠] (1 : ℝ), ∀ x : Field L N, signed (sys.scaled K dt t) L (Fock.extend x) (fun _ _ => 1) ≠ 0 := by
  rw [Filter.eventually_all]
  intro x
  have ha : AnalyticOnNhd ℝ (fun t => signed (sys.scaled K dt t) L (Fock.extend x) fun _ _ => 1) Set.univ :=
    fun z _ => signed_analytic sys K dt L _ z
  by_contra hc
  have hf : ∃ᶠ t in 𝓝[≠] (1 : ℝ), signed (sys.scaled K dt t) L (Fock.extend x) (fun _ _ => 1) = 0 := by
    intro hn
    exact hc hn
  exact scaled_zero h L x (ha.eqOn_zero_of_preconnected_of_frequently_eq_zero isPreconnected_univ (Set.mem_univ 1) hf
    (Set.mem_univ 0))

/-- a continuous function of the hopping is nonnegative if it is so wherever no weight vanishes -/
theorem generic_nonneg (h : Describes sys Norb K U dt) (L : ℕ) {V : ℝ → ℝ} (hV : Continuous V)
    (hp : ∀ t, (∀ x : Field L N, signed (sys.scaled K dt t) L (Fock.extend x) (fun _ _ => 1) ≠ 0) → 0 ≤ V t) : 0 ≤ V 1 :=
  ge_of_tendsto (hV.continuousAt.mono_left nhdsWithin_le_nhds) ((generic_weights h L).mono fun t ht => hp t ht)

theorem hopOp_smul (t : ℝ) (K : Mat N) : hopOp (t • K) = t • hopOp K := by
  unfold hopOp
  simp only [Matrix.smul_apply, smul_eq_mul, mul_smul, Finset.smul_sum]

theorem step_trace_pos (hK : K.IsSymm) (V : Fin N → ℝ) (dt : ℝ) (L : ℕ) : 0 < ((stepOp K V dt fun _ => 0) ^ L).trace := by
  have : potOp (fun _ : Fin N => (0 : ℝ)) = 0 := by simp [potOp]
  unfold stepOp
  rw [this, smul_zero, NormedSpace.exp_zero, mul_one]
  exact Fock.trace_exp_pos ((repOp_symm V).smul _) ((hopOp_symm hK).smul _) L

/-- expectation values depend continuously on the hopping -/
theorem thermalPair_continuous (hK : K.IsSymm) (V : Fin N → ℝ) (dt : ℝ) (L l : ℕ) (X Y : Op (Mode N)) :
    Continuous fun t : ℝ => thermalPair (stepOp (t • K) V dt fun _ => 0) L l X Y := by
  have h1 : Continuous fun t : ℝ => stepOp (t • K) V dt fun _ => 0 := by
    unfold stepOp
    simp only [hopOp_smul]
    refine continuous_const.mul ?_
    have h2 : Continuous fun t : ℝ => -dt • t • hopOp K := by fun_prop
    exact NormedSpace.exp_continuous.comp h2
  unfold thermalPair
  refine Continuous.div ?_ (h1.pow L).matrix_trace fun t => ?_
  · exact ((((h1.pow _).mul continuous_const).mul (h1.pow _)).mul continuous_const).matrix_trace
  · refine (step_trace_pos (hK.smul t) V dt L).ne'

end scaled

/-! ## Finite numbers of time slices -/

section thermal

variable {σ M : Type} {N : ℕ} {sys : Sys σ N M} {Norb : ℕ} {K : Mat N} {U : ℕ → ℝ} {dt : ℝ} {η : Fin N → ℝ} {L l : ℕ}

theorem signed_pos (hph : ParticleHole sys η) (hc : ∀ i : Fin N, Consistent sys.hs (sys.orb i))
    (hne : ∀ x : Field L N, signed sys L (Fock.extend x) (fun _ _ => 1) ≠ 0) (x : Field L N) :
    0 < signed sys L (Fock.extend x) fun _ _ => 1 :=
  lt_of_le_of_ne (det_product_half_filling η hph hc L 0 (Fock.extend x)).2.2 (hne x).symm

theorem average_nonneg (hp : ∀ x : Field L N, 0 < signed sys L (Fock.extend x) fun _ _ => 1) {O : (ℕ → Fin N → Fin 2) → ℝ}
    (hO : ∀ x : Field L N, 0 ≤ O (Fock.extend x)) : 0 ≤ signedAverage sys L (fun _ _ => 1) O := by
  rw [signedAverage_eq sys L _ _ fun x => (hp x).ne']
  exact div_nonneg (Finset.sum_nonneg fun x _ => mul_nonneg (hp x).le (hO x)) (Finset.sum_nonneg fun x _ => (hp x).le)

/-- the expectation values if no weight vanishes -/
theorem holes_generic (h : Describes sys Norb K U dt) (hph : ParticleHole sys η)
    (hl : l ≤ L) (hne : ∀ x : Field L N, signed sys L (Fock.extend x) (fun _ _ => 1) ≠ 0) :
    (∀ a b, 0 ≤ η a * η b * thermalPair (stepOf sys K U dt) L l (opOf (xOp a)) (opOf (xOp b))) ∧
    (∀ a b, thermalPair (stepOf sys K U dt) L l (opOf (nOp true a ++ nOp false a)) (opOf (nOp true b ++ nOp false b)) - 1
      = 2 * (η a * η b) * thermalPair (stepOf sys K U dt) L l (ann (a, true) * ann (a, false))
        (ann (b, true) * ann (b, false))ᵀ) ∧
    ∀ a, thermalPair (stepOf sys K U dt) L 0 (opOf (nOp true a)) (opOf (nOp false a)) ≤ 1 / 4 := by
  have hc : ∀ i : Fin N, Consistent sys.hs (sys.orb i) := fun i => fill_consistent _ _ _ _ h.hs _ (h.orb i)
  have hp := signed_pos hph hc hne
  have hS : signedSum sys L ≠ 0 := (Finset.sum_pos (fun x _ => hp x) Finset.univ_nonempty).ne'
  have hol : ∀ k ≤ L, ∀ x : Field L N, Holes η (timeGreen sys L sys.hs.expVu (Fock.extend x))
      (timeGreen sys L sys.hs.expVd (Fock.extend x)) k := by
    intro k hk x
    have h0 : (1 + sys.flow sys.hs.expVu L (Fock.extend x) fun _ _ => 1).det
        * (1 + sys.flow sys.hs.expVd L (Fock.extend x) fun _ _ => 1).det ≠ 0 := hne x
    rw [flow_eq, flow_eq] at h0
    exact holes_timeGreen η hph hc hk _ (left_ne_zero_of_mul h0) (right_ne_zero_of_mul h0)
  obtain ⟨h1, -, h3, -⟩ := uneq_means h hl hne
  obtain ⟨h1', -⟩ := uneq_means h (Nat.zero_le L) hne
  refine ⟨fun a b => ?_, fun a b => ?_, fun a => ?_⟩
  · rw [h1, ← average_smul hne]
    exact average_nonneg hp fun x => holes_xx hph.sq (hol l hl x) a b
  · have e := h3 [(1, (a, true), (a, false))] [(1, (b, true), (b, false))]
    simp only [pairOf, List.map_cons, List.map_nil, List.sum_cons, List.sum_nil, one_smul, add_zero] at e
    rw [e, h1, ← average_smul hne]
    nth_rewrite 2 [← average_const hne hS 1]
    rw [sub_eq_iff_eq_add', ← average_add hne, signedAverage_eq sys L _ _ hne, signedAverage_eq sys L _ _ hne]
    congr 1
    refine Finset.sum_congr rfl fun x _ => ?_
    congr 1
    have := holes_nn hph.sq (hol l hl x) (hol 0 (Nat.zero_le _) x) a b
    simp only [ucorrSpec] at this
    rw [this]
    simp [Pairs.pairCorr, unequalTime, spinG]
  · rw [h1', ← sub_nonneg]
    nth_rewrite 1 [← average_const hne hS (1 / 4)]
    rw [sub_eq_add_neg, ← average_neg hne, ← average_add hne]
    refine average_nonneg hp fun x => ?_
    have hd := (hol 0 (Nat.zero_le _) x).eq a a
    rw [if_pos rfl, hph.sq, one_mul] at hd
    simp [Pairs.corr, Pairs.four, unequalTime, spinG, nOp, hd]
    nlinarith [sq_nonneg (2 * (timeGreen sys L sys.hs.expVu (Fock.extend x)).eq 0 a a - 1)]

/-- C122 for expectation values with any number of time slices, at any two of them -/
theorem thermal_antiferro (h : Describes sys Norb K U dt) (hη : ∀ i, η i * η i = 1) (hK : K.IsSymm)
    (hb : ∀ i j, K i j ≠ 0 → η i * η j = -1) (hl : l ≤ L) :
    AntiferroMeans η (thermalPair (stepOf sys K U dt) L l) ∧
    ∀ a, thermalPair (stepOf sys K U dt) L 0 (opOf (nOp true a)) (opOf (nOp false a)) ≤ 1 / 4 := by
  set V : Fin N → ℝ := fun i => U (sys.orb i) with hV
  have hg : ∀ t, (∀ x : Field L N, signed (sys.scaled K dt t) L (Fock.extend x) (fun _ _ => 1) ≠ 0) → _ := fun t ht =>
    holes_generic (scaled_describes h t) (scaled_particleHole hη hK hb t) hl ht
  have hcont := fun k X Y => thermalPair_continuous hK V dt L k X Y
  have e1 : stepOf sys K U dt = stepOp ((1 : ℝ) • K) V dt fun _ => 0 := by rw [one_smul]; rfl
  have hx : ∀ a b, 0 ≤ η a * η b * thermalPair (stepOf sys K U dt) L l (opOf (xOp a)) (opOf (xOp b)) := by
    intro a b
    rw [e1]
    exact generic_nonneg h L (V := fun t => η a * η b * thermalPair (stepOp (t • K) V dt fun _ => 0) L l (opOf (xOp a)) (opOf (xOp b)))
      (continuous_const.mul (hcont l _ _)) fun t ht => (hg t ht).1 a b
  refine ⟨⟨fun a b => ?_, hx, fun a b => ?_⟩, fun a => ?_⟩
  · have := hx a b
    rwa [opOf_xOp, opOf_xOp, ← turn_z, ← turn_z, stepOf, thermalPair_invariant, ← stepOf, ← opOf_zOp, ← opOf_zOp] at this
  · rw [e1]
    set D : ℝ → ℝ := fun t => thermalPair (stepOp (t • K) V dt fun _ => 0) L l (opOf (nOp true a ++ nOp false a))
      (opOf (nOp true b ++ nOp false b)) - 1 - 2 * (η a * η b) * thermalPair (stepOp (t • K) V dt fun _ => 0) L l
        (ann (a, true) * ann (a, false)) (ann (b, true) * ann (b, false))ᵀ with hD
    have hDc : Continuous D := ((hcont l _ _).sub continuous_const).sub (continuous_const.mul (hcont l _ _))
    have h0 : ∀ t, (∀ x : Field L N, signed (sys.scaled K dt t) L (Fock.extend x) (fun _ _ => 1) ≠ 0) → D t = 0 :=
      fun t ht => sub_eq_zero.2 ((hg t ht).2.1 a b)
    have u := generic_nonneg h L hDc fun t ht => (h0 t ht).ge
    have v := generic_nonneg h L hDc.neg fun t ht => neg_nonneg.2 (h0 t ht).le
    exact sub_eq_zero.1 (le_antisymm (neg_nonneg.1 v) u)
  · rw [e1, ← sub_nonneg]
    exact generic_nonneg h L (V := fun t => 1 / 4 - thermalPair (stepOp (t • K) V dt fun _ => 0) L 0 (opOf (nOp true a)) (opOf (nOp false a)))
      (continuous_const.sub (hcont 0 _ _)) fun t ht => sub_nonneg.2 ((hg t ht).2.2 a)

end thermal

/-! ## The limit of many time slices -/

section gibbs

attribute [local instance] Matrix.linftyOpNormedRing Matrix.linftyOpNormedAlgebra

variable {N : ℕ} {η : Fin N → ℝ}

theorem AntiferroMeans.tendsto {T : ℕ → Op (Mode N) → Op (Mode N) → ℝ} {T' : Op (Mode N) → Op (Mode N) → ℝ}
    (h : ∀ᶠ n in atTop, AntiferroMeans η (T n)) (hT : ∀ X Y, Tendsto (fun n => T n X Y) atTop (𝓝 (T' X Y))) :
    AntiferroMeans η T' := by
  refine ⟨fun a b => ?_, fun a b => ?_, fun a b => ?_⟩
  · exact ge_of_tendsto ((hT _ _).const_mul _) (h.mono fun n hn => hn.spinZ a b)
  · exact ge_of_tendsto ((hT _ _).const_mul _) (h.mono fun n hn => hn.spinX a b)
  · refine tendsto_nhds_unique ((hT _ _).sub_const 1) (((hT _ _).const_mul _).congr' ?_)
    exact h.mono fun n hn => (hn.charge a b).symm

/-- many time slices with the imaginary time rounded to a multiple of the time step -/
theorem thermalPair_tendsto {K : Mat N} (hK : K.IsSymm) (V : Fin N → ℝ) {β τ : ℝ} (hβ : 0 < β) (h0 : 0 ≤ τ) (h1 : τ ≤ β)
    (X Y : Op (Mode N)) :
    Tendsto (fun L : ℕ => thermalPair (stepOp K V (β / L) fun _ => 0) L ⌊τ / β * (L : ℝ)⌋₊ X Y) atTop
      (𝓝 (gibbsPair (hopOp K + repOp V) β τ X Y)) := by
  have hr : τ / β ≤ 1 := (div_le_one hβ).2 h1
  have hr0 : 0 ≤ τ / β := div_nonneg h0 hβ.le
  obtain ⟨C, L₀, hC⟩ := thermalPair_limit hK V β
  have ht : Tendsto (fun L : ℕ => (⌊τ / β * (L : ℝ)⌋₊ : ℝ) * (β / L)) atTop (𝓝 τ) := by
    have h2 := ((tendsto_nat_floor_mul_div_atTop hr0).comp (tendsto_natCast_atTop_atTop (R := ℝ))).mul_const β
    rw [div_mul_cancel₀ _ hβ.ne'] at h2
    refine h2.congr fun L => ?_
    simp only [Function.comp]
    ring
  have hg : Continuous fun r : ℝ => gibbsPair (hopOp K + repOp V) β r X Y := by
    unfold gibbsPair
    refine Continuous.div_const ?_ _
    have e1 : Continuous fun r : ℝ => NormedSpace.exp (-(β - r) • (hopOp K + repOp V)) :=
      NormedSpace.exp_continuous.comp (by fun_prop)
    have e2 : Continuous fun r : ℝ => NormedSpace.exp (-r • (hopOp K + repOp V)) :=
      NormedSpace.exp_continuous.comp (by fun_prop)
    exact (((e1.mul continuous_const).mul e2).mul continuous_const).matrix_trace
  have hlim := (hg.tendsto τ).comp ht
  have hz : Tendsto (fun L : ℕ => thermalPair (stepOp K V (β / L) fun _ => 0) L ⌊τ / β * (L : ℝ)⌋₊ X Y
      - gibbsPair (hopOp K + repOp V) β (⌊τ / β * (L : ℝ)⌋₊ * (β / L)) X Y) atTop (𝓝 0) := by
    refine squeeze_zero_norm' ?_ (tendsto_const_div_atTop_nhds_zero_nat (C * Trotter.size X * Trotter.size Y))
    filter_upwards [eventually_ge_atTop L₀] with L hL
    refine hC L hL _ (Nat.floor_le_of_le ?_) X Y
    exact mul_le_of_le_one_left (Nat.cast_nonneg _) hr
  simpa using hz.add hlim

/-- C122 in the Hubbard model at any temperature and any difference of imaginary times -/
theorem gibbs_antiferro {σ M : Type} (sys : Sys σ N M) {Norb : ℕ} (ho : ∀ i, sys.orb i < Norb) {K : Mat N} {U : ℕ → ℝ}
    (hU : ∀ o < Norb, 0 ≤ U o) (hη : ∀ i, η i * η i = 1) (hK : K.IsSymm) (hb : ∀ i j, K i j ≠ 0 → η i * η j = -1) {β τ : ℝ}
    (hβ : 0 < β) (h0 : 0 ≤ τ) (h1 : τ ≤ β) :
    AntiferroMeans η (gibbsPair (hopOp K + repOp fun i => U (sys.orb i)) β τ) ∧
    ∀ a, gibbsPair (hopOp K + repOp fun i => U (sys.orb i)) β 0 (opOf (nOp true a)) (opOf (nOp false a)) ≤ 1 / 4 := by
  have key : ∀ (τ : ℝ), 0 ≤ τ → τ ≤ β → ∀ L : ℕ,
      AntiferroMeans η (thermalPair (stepOp K (fun i => U (sys.orb i)) (β / L) fun _ => 0) L ⌊τ / β * (L : ℝ)⌋₊) ∧
      ∀ a, thermalPair (stepOp K (fun i => U (sys.orb i)) (β / L) fun _ => 0) L 0 (opOf (nOp true a)) (opOf (nOp false a))
        ≤ 1 / 4 := by
    intro τ h0 h1 L
    have hn : ∀ o < Norb, 0 ≤ β / L * U o := fun o h => mul_nonneg (by positivity) (hU o h)
    obtain ⟨hs, hhs⟩ := Stratonovich.fill_defined (Norb := Norb) (U := U) (dt := β / L) hn
    have hd : Describes { sys with hs := hs, expK := NormedSpace.exp (-(β / L) • K) } Norb K U (β / L) := ⟨hn, ho, hhs, rfl⟩
    have hl : ⌊τ / β * (L : ℝ)⌋₊ ≤ L :=
      Nat.floor_le_of_le (mul_le_of_le_one_left (Nat.cast_nonneg _) ((div_le_one hβ).2 h1))
    have := thermal_antiferro hd hη hK hb hl
    exact this
  refine ⟨AntiferroMeans.tendsto (Eventually.of_forall fun L => (key τ h0 h1 L).1) fun X Y => thermalPair_tendsto hK _ hβ h0 h1 X Y,
    fun a => ?_⟩
  refine le_of_tendsto (thermalPair_tendsto hK _ hβ le_rfl hβ.le _ _) (Eventually.of_forall fun L => ?_)
  have := (key 0 le_rfl hβ.le L).2 a
  rwa [zero_div, zero_mul, Nat.floor_zero]

end gibbs

/-! ## Results -/

section results

variable {N : ℕ} [NeZero N] {η : Fin N → ℝ} {col : Coloring} {Nx Ny Norb L : ℕ} {s t : ℤ}

/-- C122 for results which stand for expectation values -/
theorem EqHolds.antiferro (hx : 0 < Nx) (hy : 0 < Ny) (hη : Bicolored η col Nx Ny Norb s) {T : Op (Mode N) → Op (Mode N) → ℝ}
    {T' : Op (Mode N) → ℝ} (hT : ∀ X Y, T' (X * Y) = T X Y) (h : AntiferroMeans η T) (hi : Invariant fun X Y => T' (X * Y))
    (hd : ∀ a, T (opOf (nOp true a)) (opOf (nOp false a)) ≤ 1 / 4) {R : EqF → ℤ → ℝ → Prop}
    (hR : EqHolds Nx Ny Norb s t T' R) : AntiferroResults col Nx Ny Norb s R := by
  have hpos : 0 < Nx * Ny := Nat.mul_pos hx hy
  refine ⟨fun o p ho hp dx dy => ?_, fun o ho => ?_⟩
  · refine ⟨_, hR.corr .zz (by simp) o p ho hp dx dy, ?_, ?_⟩
    · convert hR.corr .xx (by simp) o p ho hp dx dy using 3 with c
      simp only [corrOp, opOf_zOp, opOf_xOp]
      rw [← turn_z, ← turn_z]
      exact (hi _ _ _).symm
    · rw [← cellAvg_mul]
      refine cellAvg_nonneg fun c hc => ?_
      rw [← hη.rel o p c ho hp hc dx dy, corrOp, hT]
      exact h.spinZ _ _
  · refine ⟨_, hR.dens .doubleocc (by simp) o ho, ?_⟩
    rw [← sub_nonneg]
    nth_rewrite 1 [← cellAvg_one hpos (1 / 4)]
    rw [← cellAvg_sub]
    refine cellAvg_nonneg fun c _ => ?_
    rw [densOp, hT]
    exact sub_nonneg.2 (hd _)

theorem UneqHolds.antiferro (hx : 0 < Nx) (hy : 0 < Ny) (hη : Bicolored η col Nx Ny Norb s) {b1 : Prop}
    {T : ℕ → Op (Mode N) → Op (Mode N) → ℝ} (h : ∀ l < L, AntiferroMeans η (T l)) (hi : ∀ l, Invariant (T l))
    {R : UneqF → ℤ → ℝ → Prop} (hR : UneqHolds Nx Ny Norb L s t b1 T R) : UneqAntiferroResults col Nx Ny Norb L s R := by
  have hpos : 0 < Nx * Ny := Nat.mul_pos hx hy
  refine ⟨fun l o p hl ho hp dx dy => ?_, fun l o hl ho dx dy => ?_⟩
  · refine ⟨_, hR.corr .zz (by simp) l o p hl ho hp dx dy, ?_, ?_⟩
    · convert hR.corr .xx (by simp) l o p hl ho hp dx dy using 3 with c
      simp only [uvalue, opOf_zOp, opOf_xOp]
      rw [← turn_z, ← turn_z, hi l]
    · rw [← cellAvg_mul]
      refine cellAvg_nonneg fun c hc => ?_
      rw [← hη.rel o p c ho hp hc dx dy]
      exact (h l hl).spinZ _ _
  · refine ⟨_, ?_, hR.pair .scSw (by simp) (by simp) l o hl ho dx dy⟩
    convert hR.corr .nn (by simp) l o o hl ho ho dx dy using 1
    rw [← cellAvg_mul]
    conv_lhs => rw [← cellAvg_one hpos 1, ← cellAvg_add]
    refine cellAvg_congr fun c hc => ?_
    rw [← hη.rel o o c ho ho hc dx dy]
    have := (h l hl).charge (siteN N (Nx * Ny) o c) (siteN N (Nx * Ny) o (moveCell Nx Ny s c dx dy))
    have e : ∀ c, pairOf (N := N) (onsitePair Nx Ny o c)
        = ann (siteN N (Nx * Ny) o c, true) * ann (siteN N (Nx * Ny) o c, false) := by
      intro c
      simp [onsitePair, pairOf]
    simp only [uvalue, upairValue, e]
    linarith

end results

section program

variable {mc : Machine} {p : SimParams ℝ} {col : Coloring}

theorem bondMatrix_colors (hv : Admissible p) (hh : HalfFilling p col) (i j : Fin (sites p)) (hij : bondMatrix p i j ≠ 0) :
    sublattice p col i * sublattice p col j = -1 := by
  have h1 := hv.nx
  have h2 := hv.ny
  have hx : 0 < p.Nx.toNat := by omega
  have hy : 0 < p.Ny.toNat := by omega
  simp only [bondMatrix, Matrix.of_apply] at hij
  split at hij
  · refine absurd ?_ hij
    rw [hh.eps _ ((Nat.div_lt_iff_lt_mul (Nat.mul_pos hx hy)).2 i.2), neg_add_cancel]
  · exact col.bond_sign hx hy hh.fits (neg_ne_zero.1 hij)

theorem sysOf_some (hv : Admissible p) (hg : Guards p) : ∃ sys, sysOf mc p = some sys := by
  have h1 := hv.norb
  have h2 := hv.nx
  have h3 := hv.ny
  obtain ⟨T, K, -, hK, -⟩ := Kinetic.kinetic_exponentials p.Norb.toNat p.Nx.toNat p.Ny.toNat
    (by omega) (by omega) p.pbcShift hg.shift p.t p.eps p.mu p.dt (mc.es _)
  obtain ⟨hs, hhs⟩ := Stratonovich.fill_defined (Norb := p.Norb.toNat) (U := fun o => p.U o) (dt := p.dt)
    fun o ho => hg.U o (by omega)
  unfold sysOf
  simp only [hK, hhs, Option.bind_eq_bind, Option.bind_some]
  exact ⟨_, rfl⟩

/-- C122 for the expectation values of the program -/
theorem hubbard_antiferro (hv : Admissible p) (hg : Guards p) (hh : HalfFilling p col) {L l : ℕ} (hl : l ≤ L) :
    AntiferroMeans (sublattice p col) (thermalPair (hubbardStep p) L l) ∧
    ∀ a, thermalPair (hubbardStep p) L 0 (opOf (nOp true a)) (opOf (nOp false a)) ≤ 1 / 4 := by
  obtain ⟨mc, -⟩ := machine_exists
  obtain ⟨sys, hsys⟩ := sysOf_some (mc := mc) hv hg
  obtain ⟨ho, hD⟩ := program_describes hv hg sys hsys
  have := thermal_antiferro (η := sublattice p col) hD (fun i => col.sign_sq _ _ _) (bondMatrix_symm p) (bondMatrix_colors hv hh) hl
  have e : stepOf sys (bondMatrix p) (fun o => p.U o) p.dt = hubbardStep p := by
    unfold stepOf hubbardStep
    simp only [ho]
  rwa [e] at this

/-- C122: the results of long runs of a half filled system converge to values with the signs of antiferromagnetism, for all
directions of the spin -/
theorem program_antiferro {σ : Type} [MeasurableSpace σ] {P : MeasureTheory.Measure σ} [NeZero (sites p)] (hmc : mc.Rounds)
    (hv : Admissible p) (hg : Guards p)
    (hN : sites p < 2 ^ 31) (hh : HalfFilling p col) (fnbase : String) (rng : Rng σ) (hlaw : rng.Lawful (sites p))
    (hP : rng.Ideal (sites p) P) (sys : Sys Seed (sites p) MeasData) (hsys : sysOf mc p = some sys)
    (hw : ∀ s, sys.weight p.L.toNat s (fun _ _ => 1) ≠ 0)
    (hr : ∀ i : Fin (sites p), p.U ((i.val / (p.Nx.toNat * p.Ny.toNat) : ℕ) : ℤ) = 0 ∨
      ∀ l < p.L.toNat, ∀ x : Field p.L.toNat (sites p),
        sys.weight p.L.toNat (Fock.extend (flipAt l i x)) (fun _ _ => 1)
          ≠ sys.weight p.L.toNat (Fock.extend x) (fun _ _ => 1))
    (hnq : 0 ≤ p.nequil) (X expX : ℕ → Fin (sites p) → ℝ) (cnt : Counters) (maxNsampl : ℕ) :
    let L := p.L.toNat
    let cfg := (mkSetup mc p fnbase).cfg
    let sys' := sys.withRng rng
    ∃ R : ℕ → σ → LoopResult (State σ (sites p) MeasData),
      (∀ (n : ℕ) r, simulate sys' (mkSetup mc p fnbase).ph { cfg with nsampl := n } (fun _ => false) 0
        (freshField rng L (sites p) r).2 (Fock.extend (freshField rng L (sites p) r).1) X expX cnt
        (MeasData.allocate maxNsampl) = some (R n r)) ∧
      (0 < p.neqlt → p.neqlt ≤ p.L →
        AntiferroResults col p.Nx.toNat p.Ny.toNat p.Norb.toNat p.pbcShift fun f z v =>
          Converges P (fun n (_ : Unit) r => (R n r).state.meas.eq.arr f z / (R n r).state.meas.eq.sign) v) ∧
      (0 < p.nuneqlt →
        UneqAntiferroResults col p.Nx.toNat p.Ny.toNat p.Norb.toNat L p.pbcShift fun f z v =>
          Converges P (fun n (_ : Unit) r => (R n r).state.meas.uneq.arr f z / (R n r).state.meas.uneq.sign) v) := by
  intro L cfg sys'
  have h1 := hv.nx
  have h2 := hv.ny
  have hx : 0 < p.Nx.toNat := by omega
  have hy : 0 < p.Ny.toNat := by omega
  have hNN : sites p = p.Nx.toNat * p.Ny.toNat * p.Norb.toNat := by unfold sites; ring
  have hη : Bicolored (sublattice p col) col p.Nx.toNat p.Ny.toNat p.Norb.toNat p.pbcShift := bicolored hx hy hNN hh.fits
  obtain ⟨R, h1, h2, h3⟩ := program_fresh_converges hmc hv hg hN hh.phonons fnbase rng hlaw hP sys hsys hw hr hnq X expX cnt
    maxNsampl
  have hi : ∀ l, Invariant (thermalPair (hubbardStep p) L l) := fun l => thermalPair_invariant _ _ _ _ L l
  have hm : ∀ X Y, thermalMean (hubbardStep p) L (X * Y) = thermalPair (hubbardStep p) L 0 X Y := by
    intro X Y
    unfold thermalMean thermalPair
    rw [Nat.sub_zero, pow_zero, mul_one, mul_assoc]
  refine ⟨R, h1, fun hc hcL => ?_, fun hc => ?_⟩
  · obtain ⟨a1, a2⟩ := hubbard_antiferro hv hg hh (Nat.zero_le L)
    exact EqHolds.antiferro hx hy hη hm a1 (by simp only [hm]; exact hi 0) a2 (h2 hc hcL)
  · exact UneqHolds.antiferro hx hy hη (fun l hl => (hubbard_antiferro hv hg hh hl.le).1) hi (h3 hc)

/-- C122 in the Hubbard model whose parameters are those of the run, at any temperature -/
theorem hubbard_gibbs_antiferro (hv : Admissible p) (hg : Guards p) (hh : HalfFilling p col)
    (hU : ∀ o : ℕ, o < p.Norb.toNat → 0 ≤ p.U o) {β τ : ℝ} (hβ : 0 < β) (h0 : 0 ≤ τ) (h1 : τ ≤ β) :
    AntiferroMeans (sublattice p col) (gibbsPair (hubbardOp p) β τ) ∧
    ∀ a, gibbsPair (hubbardOp p) β 0 (opOf (nOp true a)) (opOf (nOp false a)) ≤ 1 / 4 := by
  obtain ⟨mc, -⟩ := machine_exists
  obtain ⟨sys, hsys⟩ := sysOf_some (mc := mc) hv hg
  obtain ⟨ho, hD⟩ := program_describes hv hg sys hsys
  have := gibbs_antiferro (η := sublattice p col) sys hD.orb hU (fun i => col.sign_sq _ _ _) (bondMatrix_symm p)
    (bondMatrix_colors hv hh) hβ h0 h1
  have e : hopOp (bondMatrix p) + repOp (fun i => p.U (sys.orb i : ℕ)) = hubbardOp p := by
    unfold hubbardOp
    simp only [ho]
  rwa [e] at this

/-- non-vacuity: in the Hubbard model with two by two sites, neighbouring spins are antiparallel -/
example {β : ℝ} (hβ : 0 < β) : gibbsPair (hubbardOp exHalf) β 0 (opOf (zOp 0)) (opOf (zOp 1)) ≤ 0 ∧
    0 ≤ gibbsPair (hubbardOp exHalf) β 0 (opOf (zOp 0)) (opOf (zOp 3)) := by
  obtain ⟨h, -⟩ := hubbard_gibbs_antiferro exHalf_admissible exHalf_guards exHalf_half
    (fun o _ => by norm_num [exHalf, exP]) hβ le_rfl hβ.le
  have s0 : sublattice exHalf checkerboard 0 = 1 := by
    simp [sublattice, Coloring.sign, Coloring.site, Coloring.num, checkerboard]
  have s1 : sublattice exHalf checkerboard 1 = -1 := by
    show (if (2 : ℤ) ∣ checkerboard.site 2 2 1 then (1 : ℝ) else -1) = -1
    rw [if_neg (by decide)]
  have s3 : sublattice exHalf checkerboard 3 = 1 := by
    show (if (2 : ℤ) ∣ checkerboard.site 2 2 3 then (1 : ℝ) else -1) = 1
    rw [if_pos (by decide)]
  have h1 := h.spinZ 0 1
  have h3 := h.spinZ 0 3
  rw [s0, s1] at h1
  rw [s0, s3] at h3
  constructor <;> linarith

/-- non-vacuity: a system which satisfies the hypotheses of `program_antiferro`, see `exU_conditions` for the others -/
example : HalfFilling exU (orbitals fun _ => 0) := by
  refine ⟨orbitals_fits fun k o q _ _ h => ?_, fun _ _ => rfl, rfl⟩
  cases k <;> exact absurd rfl h

end program

end Verif.MonteCarlo
