import Verif.Props.Occupation
import Verif.Props.HalfFilling
import Verif.Lemmas.GramTrace

/-!
# Property C118: the expected unequal time results as functions of time

The expected results at the times `l` and `L - l` agree, up to the exchange of the two operators: the correlations of
densities, spins, currents and Raman operators with the opposite displacement and exchanged orbitals, and the Green's
functions `Gtau0` with minus `G0tau`.  The Green's functions at equal times do not depend on time.  The structure factors
of densities, spins and pairs on single sites are not negative at any time, and their logarithms are convex functions of
time; those of densities and spins decrease up to the middle.
-/

set_option autoImplicit false

namespace Verif.MonteCarlo

open Matrix MeasureTheory Verif.Lapack Verif.TimeFlow Verif.Fock Verif.Measurement Verif.Lattice Verif.Trotter
open Verif.Main Verif.Progress Verif.Params Verif.Random

variable {N : ℕ}

/-! ## Specification -/

/-- relations between the results at the times `l` and `L - l` -/
structure TimeSymmetric (Nx Ny Norb L : ℕ) (s : ℤ) (b1 : Prop) (R : UneqF → ℤ → ℝ → Prop) : Prop where
  corr : ∀ f ∈ [UneqF.nn, .zz, .xx], ∀ l o p : ℕ, 0 < l → l < L → o < Norb → p < Norb → ∀ dx dy : ℤ, ∃ v,
    R f (cellOf Nx Ny s dx dy + (Nx * Ny : ℕ) * (o + Norb * p + Norb * Norb * l)) v ∧
    R f (cellOf Nx Ny s (-dx) (-dy) + (Nx * Ny : ℕ) * (p + Norb * o + Norb * Norb * (L - l : ℕ))) v
  green : ∀ q ∈ [(UneqF.gtau0U, UneqF.g0tauU), (.gtau0D, .g0tauD)], ∀ l o p : ℕ, 0 < l → l < L → o < Norb → p < Norb →
    ∀ dx dy : ℤ, ∃ v,
    R q.1 (cellOf Nx Ny s dx dy + (Nx * Ny : ℕ) * (o + Norb * p + Norb * Norb * l)) v ∧
    R q.2 (cellOf Nx Ny s dx dy + (Nx * Ny : ℕ) * (o + Norb * p + Norb * Norb * (L - l : ℕ))) (-v)
  equal : ∀ f ∈ [UneqF.geqltU, .geqltD], ∀ l o p : ℕ, l < L → o < Norb → p < Norb → ∀ dx dy : ℤ, ∃ v,
    R f (cellOf Nx Ny s dx dy + (Nx * Ny : ℕ) * (o + Norb * p + Norb * Norb * l)) v ∧
    R f (cellOf Nx Ny s dx dy + (Nx * Ny : ℕ) * (o + Norb * p)) v
  pair : ∀ f ∈ [UneqF.jx, .jy, .b1g, .b2g], (f = .b1g → b1) → ∀ l o : ℕ, 0 < l → l < L → o < Norb → ∀ dx dy : ℤ, ∃ v,
    R f (cellOf Nx Ny s dx dy + (Nx * Ny : ℕ) * (o + Norb * l)) v ∧
    R f (cellOf Nx Ny s (-dx) (-dy) + (Nx * Ny : ℕ) * (o + Norb * (L - l : ℕ))) v

/-- the correlations `v o p d` of the orbitals `o` and `p` at the displacement `d`, summed with the correlations of the
amplitudes `φ` of the orbitals and cells -/
noncomputable def strucFactor (Nx Ny Norb : ℕ) (s : ℤ) (φ : ℕ → ℕ → ℝ) (v : ℕ → ℕ → ℕ → ℝ) : ℝ :=
  ∑ o ∈ Finset.range Norb, ∑ p ∈ Finset.range Norb, ∑ d ∈ Finset.range (Nx * Ny),
    (∑ c ∈ Finset.range (Nx * Ny), φ o c * φ p (moveCell Nx Ny s c (d % Nx : ℕ) (d / Nx : ℕ))) * v o p d

/-- the structure factors as functions of time -/
structure Relaxing (Nx Ny Norb L : ℕ) (s : ℤ) (R : UneqF → ℤ → ℝ → Prop) : Prop where
  /-- densities and spins -/
  corr : ∀ f ∈ [UneqF.nn, .zz, .xx], ∃ v : ℕ → ℕ → ℕ → ℕ → ℝ,
    (∀ l o p d, l < L → o < Norb → p < Norb → d < Nx * Ny →
      R f (d + (Nx * Ny : ℕ) * (o + Norb * p + Norb * Norb * l)) (v l o p d)) ∧
    ∀ φ, (∀ l < L, 0 ≤ strucFactor Nx Ny Norb s φ (v l)) ∧
      (∀ l, 0 < l → l < L → strucFactor Nx Ny Norb s φ (v (L - l)) = strucFactor Nx Ny Norb s φ (v l) ∧
        strucFactor Nx Ny Norb s φ (v l) ^ 2
          ≤ strucFactor Nx Ny Norb s φ (v (l - 1)) * strucFactor Nx Ny Norb s φ (v ((l + 1) % L))) ∧
      ∀ l, l + 1 < L → 2 * l + 1 ≤ L → strucFactor Nx Ny Norb s φ (v (l + 1)) ≤ strucFactor Nx Ny Norb s φ (v l)
  /-- pairs on single sites -/
  pair : ∀ o < Norb, ∃ v : ℕ → ℕ → ℝ,
    (∀ l d, l < L → d < Nx * Ny → R .scSw (d + (Nx * Ny : ℕ) * (o + Norb * l)) (v l d)) ∧
    ∀ φ : ℕ → ℝ, (∀ l < L, 0 ≤ strucFactor Nx Ny 1 s (fun _ => φ) fun _ _ => v l) ∧
      ∀ l, 0 < l → l + 1 < L → (strucFactor Nx Ny 1 s (fun _ => φ) fun _ _ => v l) ^ 2
          ≤ (strucFactor Nx Ny 1 s (fun _ => φ) fun _ _ => v (l - 1)) * strucFactor Nx Ny 1 s (fun _ => φ) fun _ _ => v (l + 1)

/-! ## The two times exchanged -/

theorem thermalPair_swap (H : Op (Mode N)) {L l : ℕ} (hl : l ≤ L) (X Y : Op (Mode N)) :
    thermalPair H L l X Y = thermalPair H L (L - l) Y X := by
  unfold thermalPair
  rw [Nat.sub_sub_self hl, mul_assoc (_ * X), trace_mul_comm, ← mul_assoc]

theorem thermalPair_one (H : Op (Mode N)) {L l : ℕ} (hl : l ≤ L) (X : Op (Mode N)) :
    thermalPair H L l X 1 = thermalPair H L 0 X 1 := by
  unfold thermalPair
  rw [mul_one, mul_one, pow_zero, mul_one, Nat.sub_zero, trace_mul_comm, ← mul_assoc, ← pow_add, Nat.add_sub_cancel' hl]

/-- expectation values which do not change if all times are moved -/
structure TimeInvariant (L : ℕ) (T : ℕ → Op (Mode N) → Op (Mode N) → ℝ) : Prop where
  swap : ∀ l ≤ L, ∀ X Y, T l X Y = T (L - l) Y X
  one : ∀ l ≤ L, ∀ X, T l X 1 = T 0 X 1

theorem thermalPair_timeInvariant (H : Op (Mode N)) (L : ℕ) : TimeInvariant L (thermalPair H L) :=
  ⟨fun _ hl X Y => thermalPair_swap H hl X Y, fun _ hl X => thermalPair_one H hl X⟩

section phonons

variable {σ M : Type} {sys : Sys σ N M} {ph : Phonon} {rest : Measure ℝ} [SigmaFinite rest] {K : Mat N}
    {U : ℕ → ℝ} {L : ℕ} [NeZero L]

omit [SigmaFinite rest] in
theorem electronTrace_swap {l l' : ℕ} (hl : l + l' = L) (X Y : Op (Mode N)) (x : Paths L N) :
    electronTrace sys ph K U L l X Y x = electronTrace sys ph K U L l' Y X (rot l x) := by
  unfold electronTrace
  have e1 : oprod (fun j => stepAt sys ph K U (extendX (rot l x) (l' + j))) (L - l')
      = oprod (fun j => stepAt sys ph K U (extendX x j)) l := by
    rw [show L - l' = l by omega]
    refine oprod_congr fun j hj => ?_
    rw [extendX_rot l x (by omega), show l + (l' + j) = j + L by omega, Nat.add_mod_right, Nat.mod_eq_of_lt (by omega)]
  have e2 : oprod (fun j => stepAt sys ph K U (extendX (rot l x) j)) l'
      = oprod (fun j => stepAt sys ph K U (extendX x (l + j))) (L - l) := by
    rw [show L - l = l' by omega]
    refine oprod_congr fun j hj => ?_
    rw [extendX_rot l x (by omega), Nat.mod_eq_of_lt (by omega)]
  rw [e1, e2, mul_assoc (_ * X), trace_mul_comm, ← mul_assoc]

theorem holstein_swap {l l' : ℕ} (hl : l + l' = L) (X Y : Op (Mode N)) :
    holstein sys ph rest K U L l (fun _ => 1) X Y = holstein sys ph rest K U L l' (fun _ => 1) Y X := by
  unfold holstein
  rw [← rot_integral l fun x => electronTrace sys ph K U L l' Y X x * 1 *
      Real.exp (-ph.dt * sys.energy ph L (extendX x))]
  refine integral_congr_ae (Filter.Eventually.of_forall fun x => ?_)
  beta_reduce
  rw [energy_rot, electronTrace_swap hl]

/-- the same with phonons, as the paths can be rotated -/
theorem holstein_timeInvariant : TimeInvariant L fun l => holsteinPair sys ph rest K U L l fun _ => 1 := by
  refine ⟨fun l hl X Y => ?_, fun l hl X => ?_⟩
  · unfold holsteinPair
    rw [holstein_swap (show l + (L - l) = L by omega)]
  · unfold holsteinPair
    rw [← holstein_rot hl (fun _ => 1) X]

end phonons

variable [NeZero N] {Nx Ny Norb L : ℕ} {s t : ℤ} {b1 : Prop}

/-- the two cells exchanged -/
theorem cellAvg_swap (hx : 0 < Nx) (hy : 0 < Ny) (dx dy : ℤ) (F : ℕ → ℕ → ℝ) :
    cellAvg (Nx * Ny) (fun c => F c (moveCell Nx Ny s c dx dy)) = cellAvg (Nx * Ny) fun c => F (moveCell Nx Ny s c (-dx) (-dy)) c := by
  rw [← cellAvg_move hx hy s (-dx) (-dy) fun c => F c (moveCell Nx Ny s c dx dy)]
  refine cellAvg_congr fun c hc => ?_
  rw [moveCell_add hx hy, neg_add_cancel, neg_add_cancel, moveCell_zero hx s hc]

/-- C118, the times `l` and `L - l` -/
theorem UneqHolds.timeSymmetric (hx : 0 < Nx) (hy : 0 < Ny) {T : ℕ → Op (Mode N) → Op (Mode N) → ℝ} (hT : TimeInvariant L T)
    {R : UneqF → ℤ → ℝ → Prop} (h : UneqHolds Nx Ny Norb L s t b1 T R) : TimeSymmetric Nx Ny Norb L s b1 R := by
  constructor
  · intro f hf l o p h0 hl ho hp dx dy
    have hf' : f ∈ [UneqF.geqltU, .geqltD, .gtau0U, .gtau0D, .g0tauU, .g0tauD, .nn, .zz, .xx] := by
      simp only [List.mem_cons, List.not_mem_nil, or_false] at hf ⊢
      tauto
    refine ⟨_, h.corr f hf' l o p hl ho hp dx dy, ?_⟩
    convert h.corr f hf' (L - l) p o (by omega) hp ho (-dx) (-dy) using 1
    refine (cellAvg_swap hx hy dx dy fun c c' =>
      uvalue T l (siteN N (Nx * Ny) o c) (siteN N (Nx * Ny) p c') f).trans ?_
    refine cellAvg_congr fun c _ => ?_
    simp only [List.mem_cons, List.not_mem_nil, or_false] at hf
    rcases hf with rfl | rfl | rfl <;> exact hT.swap l hl.le _ _
  · intro q hq l o p h0 hl ho hp dx dy
    have hq' : q.1 ∈ [UneqF.geqltU, .geqltD, .gtau0U, .gtau0D, .g0tauU, .g0tauD, .nn, .zz, .xx] ∧
        q.2 ∈ [UneqF.geqltU, .geqltD, .gtau0U, .gtau0D, .g0tauU, .g0tauD, .nn, .zz, .xx] := by
      simp only [List.mem_cons, List.not_mem_nil, or_false] at hq
      rcases hq with rfl | rfl <;> simp
    refine ⟨_, h.corr q.1 hq'.1 l o p hl ho hp dx dy, ?_⟩
    convert h.corr q.2 hq'.2 (L - l) o p (by omega) ho hp dx dy using 1
    rw [neg_eq_neg_one_mul, ← cellAvg_mul]
    refine cellAvg_congr fun c _ => ?_
    have hne : L - l ≠ 0 := by omega
    simp only [List.mem_cons, List.not_mem_nil, or_false] at hq
    rcases hq with rfl | rfl <;> simp only [uvalue, if_neg hne] <;> rw [hT.swap l hl.le, neg_one_mul]
  · intro f hf l o p hl ho hp dx dy
    have hf' : f ∈ [UneqF.geqltU, .geqltD, .gtau0U, .gtau0D, .g0tauU, .g0tauD, .nn, .zz, .xx] := by
      simp only [List.mem_cons, List.not_mem_nil, or_false] at hf ⊢
      tauto
    refine ⟨_, h.corr f hf' l o p hl ho hp dx dy, ?_⟩
    have h2 := h.corr f hf' 0 o p (by omega) ho hp dx dy
    rw [Nat.cast_zero, mul_zero, add_zero] at h2
    convert h2 using 1
    refine cellAvg_congr fun c _ => ?_
    simp only [List.mem_cons, List.not_mem_nil, or_false] at hf
    rcases hf with rfl | rfl <;> exact hT.one l hl.le _
  · intro f hf hb l o h0 hl ho dx dy
    have hf' : f ∈ [UneqF.scSw, .scDw, .scSx, .jx, .jy, .b1g, .b2g] := by
      simp only [List.mem_cons, List.not_mem_nil, or_false] at hf ⊢
      tauto
    refine ⟨_, h.pair f hf' hb l o hl ho dx dy, ?_⟩
    convert h.pair f hf' hb (L - l) o (by omega) ho (-dx) (-dy) using 1
    refine (cellAvg_swap hx hy dx dy fun c c' => upairValue Nx Ny t T l o c c' f).trans ?_
    refine cellAvg_congr fun c _ => ?_
    simp only [List.mem_cons, List.not_mem_nil, or_false] at hf
    rcases hf with rfl | rfl | rfl | rfl
    · exact congrArg Neg.neg (hT.swap l hl.le _ _)
    · exact congrArg Neg.neg (hT.swap l hl.le _ _)
    · exact hT.swap l hl.le _ _
    · exact hT.swap l hl.le _ _

/-! ## Structure factors -/

section factors

variable {K : Mat N} (hK : K.IsSymm) (U : Fin N → ℝ) (dt : ℝ)

/-- structure factors at time `l` of operators which commute with the repulsion -/
noncomputable def factor (Nx Ny Norb : ℕ) (s : ℤ) (H : Op (Mode N)) (L : ℕ) (Z : ℕ → ℕ → Op (Mode N)) (φ : ℕ → ℕ → ℝ) (l : ℕ) : ℝ :=
  strucFactor Nx Ny Norb s φ fun o p d => cellAvg (Nx * Ny) fun c =>
    thermalPair H L l (Z o c) (Z p (moveCell Nx Ny s c (d % Nx : ℕ) (d / Nx : ℕ)))ᵀ

omit [NeZero N] in
include hK in
/-- the structure factors as sums of traces -/
theorem factor_eq (hx : 0 < Nx) (hy : 0 < Ny) (Z : ℕ → ℕ → Op (Mode N)) (hZ : ∀ o c, Commute (repOp U) (Z o c))
    (φ : ℕ → ℕ → ℝ) : ∃ (R : Op (Mode N)) (W : ℕ → Op (Mode N)) (r : ℝ), Rᵀ = R ∧ 0 < r ∧
    (∀ t, W t = ∑ o ∈ Finset.range Norb, ∑ c ∈ Finset.range (Nx * Ny),
      φ o (moveCell Nx Ny s c (t % Nx : ℕ) (t / Nx : ℕ)) • Z o c) ∧
    ∀ l, factor Nx Ny Norb s (stepOp K U dt fun _ => 0) L Z φ l
      = r * ∑ t ∈ Finset.range (Nx * Ny), (R ^ (2 * (L - l)) * W t * R ^ (2 * l) * (W t)ᵀ).trace := by
  set h : Op (Mode N) := (-(dt / 2)) • repOp U with hh
  have hstep : stepOp K U dt (fun _ => 0) = NormedSpace.exp (h + h) * NormedSpace.exp (-dt • hopOp K) := by
    unfold stepOp
    have h0 : potOp (fun _ : Fin N => (0 : ℝ)) = 0 := by simp [potOp]
    rw [h0, smul_zero, NormedSpace.exp_zero, mul_one, hh, ← add_smul]
    congr 3
    ring
  obtain ⟨R, hR, hg⟩ := exists_gram ((hopOp_isSymm hK).smul (-dt)) ((repOp_symm U).smul (-(dt / 2)))
  rw [← hh] at hg
  have hc : ∀ o c, Commute h (Z o c) := fun o c => (hZ o c).smul_left _
  have hct : ∀ o c, Commute h (Z o c)ᵀ := fun o c => by
    have h1 := congrArg transpose (hc o c).eq
    rw [transpose_mul, transpose_mul, ((repOp_symm U).smul (-(dt / 2))).eq] at h1
    exact h1.symm
  have hpos : 0 < ((NormedSpace.exp (h + h) * NormedSpace.exp (-dt • hopOp K)) ^ L).trace :=
    Fock.trace_exp_pos (((repOp_symm U).smul _).add ((repOp_symm U).smul _)) ((hopOp_isSymm hK).smul (-dt)) L
  have hn : 0 < Nx * Ny := Nat.mul_pos hx hy
  set z := ((NormedSpace.exp (h + h) * NormedSpace.exp (-dt • hopOp K)) ^ L).trace with hz
  refine ⟨R, _, ((Nx * Ny : ℕ) : ℝ)⁻¹ * z⁻¹, hR, mul_pos (inv_pos.2 (by exact_mod_cast hn)) (inv_pos.2 hpos), fun _ => rfl,
    fun l => ?_⟩
  obtain ⟨hlt, hinj, hcomm⟩ := moves hx hy s
  have e := amplitudes_eq (Norb := Norb) hlt hinj hcomm
    (fun o c p d => (R ^ (2 * (L - l)) * Z o c * R ^ (2 * l) * (Z p d)ᵀ).trace) φ
  have e1 : factor Nx Ny Norb s (stepOp K U dt fun _ => 0) L Z φ l = ((Nx * Ny : ℕ) : ℝ)⁻¹ * z⁻¹ *
      ∑ o ∈ Finset.range Norb, ∑ p ∈ Finset.range Norb, ∑ d ∈ Finset.range (Nx * Ny),
        (∑ c ∈ Finset.range (Nx * Ny), φ o c * φ p (moveCell Nx Ny s c (d % Nx : ℕ) (d / Nx : ℕ))) *
          ∑ c ∈ Finset.range (Nx * Ny), (R ^ (2 * (L - l)) * Z o c * R ^ (2 * l) *
            (Z p (moveCell Nx Ny s c (d % Nx : ℕ) (d / Nx : ℕ)))ᵀ).trace := by
    unfold factor strucFactor
    simp only [Finset.mul_sum]
    refine Finset.sum_congr rfl fun o _ => Finset.sum_congr rfl fun p _ => Finset.sum_congr rfl fun d _ => ?_
    unfold cellAvg thermalPair
    rw [hstep, ← hz, ← Finset.sum_div, ← Finset.mul_sum, ← Finset.mul_sum]
    simp only [hg _ _ _ _ (hc _ _) (hct _ _)]
    ring
  rw [e1]
  congr 1
  refine e.trans (Finset.sum_congr rfl fun t _ => ?_)
  have e2 : (∑ p ∈ Finset.range Norb, ∑ d ∈ Finset.range (Nx * Ny),
      φ p (moveCell Nx Ny s d (t % Nx : ℕ) (t / Nx : ℕ)) • Z p d)ᵀ = ∑ p ∈ Finset.range Norb, ∑ d ∈ Finset.range (Nx * Ny),
      φ p (moveCell Nx Ny s d (t % Nx : ℕ) (t / Nx : ℕ)) • (Z p d)ᵀ := by
    simp only [transpose_sum, transpose_smul]
  rw [e2]
  simp only [Finset.mul_sum, Finset.sum_mul, trace_sum, Matrix.mul_smul, Matrix.smul_mul, trace_smul, smul_eq_mul]
  rw [Finset.sum_comm]
  refine Finset.sum_congr rfl fun p _ => ?_
  rw [Finset.sum_congr rfl fun o _ => Finset.sum_comm, Finset.sum_comm]
  exact Finset.sum_congr rfl fun d _ => Finset.sum_congr rfl fun o _ => Finset.sum_congr rfl fun c _ => by ring

omit [NeZero N] in
include hK in
theorem factor_nonneg (hx : 0 < Nx) (hy : 0 < Ny) (Z : ℕ → ℕ → Op (Mode N)) (hZ : ∀ o c, Commute (repOp U) (Z o c))
    (φ : ℕ → ℕ → ℝ) (l : ℕ) : 0 ≤ factor Nx Ny Norb s (stepOp K U dt fun _ => 0) L Z φ l := by
  obtain ⟨R, W, r, hR, hr, -, h⟩ := factor_eq (Norb := Norb) (s := s) (L := L) hK U dt hx hy Z hZ φ
  rw [h]
  exact mul_nonneg hr.le (Finset.sum_nonneg fun t _ => scalar_nonneg hR _ _ _)

omit [NeZero N] in
include hK in
theorem factor_convex (hx : 0 < Nx) (hy : 0 < Ny) (Z : ℕ → ℕ → Op (Mode N)) (hZ : ∀ o c, Commute (repOp U) (Z o c))
    (φ : ℕ → ℕ → ℝ) {l : ℕ} (hl : l + 2 ≤ L) : factor Nx Ny Norb s (stepOp K U dt fun _ => 0) L Z φ (l + 1) ^ 2
      ≤ factor Nx Ny Norb s (stepOp K U dt fun _ => 0) L Z φ l * factor Nx Ny Norb s (stepOp K U dt fun _ => 0) L Z φ (l + 2) := by
  obtain ⟨R, W, r, hR, hr, -, h⟩ := factor_eq (Norb := Norb) (s := s) (L := L) hK U dt hx hy Z hZ φ
  have := scalar_convex hR (Finset.range (Nx * Ny)) (L - (l + 2)) l W
  rw [h, h, h, show L - (l + 1) = L - (l + 2) + 1 by omega, show L - l = L - (l + 2) + 2 by omega, mul_pow]
  calc _ ≤ r ^ 2 * _ := mul_le_mul_of_nonneg_left this (sq_nonneg r)
    _ = _ := by ring

omit [NeZero N] in
include hK in
theorem factor_symm (hx : 0 < Nx) (hy : 0 < Ny) (Z : ℕ → ℕ → Op (Mode N)) (hZ : ∀ o c, Commute (repOp U) (Z o c))
    (hs : ∀ o c, (Z o c).IsSymm) (φ : ℕ → ℕ → ℝ) {l l' : ℕ} (hl : l + l' = L) :
    factor Nx Ny Norb s (stepOp K U dt fun _ => 0) L Z φ l' = factor Nx Ny Norb s (stepOp K U dt fun _ => 0) L Z φ l := by
  obtain ⟨R, W, r, -, -, hW, h⟩ := factor_eq (Norb := Norb) (s := s) (L := L) hK U dt hx hy Z hZ φ
  have hs' : ∀ o c, (Z o c)ᵀ = Z o c := fun o c => (hs o c).eq
  have hWt : ∀ t, (W t)ᵀ = W t := fun t => by
    rw [hW]
    simp only [transpose_sum, transpose_smul, hs']
  have e : ∀ (a c : ℕ) (X : Op (Mode N)), (R ^ a * X * R ^ c * X).trace = (R ^ c * X * R ^ a * X).trace := fun a c X => by
    rw [mul_assoc (_ * X), trace_mul_comm, ← mul_assoc]
  rw [h l, h l', show L - l' = l by omega, show L - l = l' by omega]
  refine congrArg (r * ·) ?_
  refine Finset.sum_congr rfl fun t _ => ?_
  rw [hWt, e]

omit [NeZero N] in
include hK in
theorem factor_decreasing (hx : 0 < Nx) (hy : 0 < Ny) (Z : ℕ → ℕ → Op (Mode N)) (hZ : ∀ o c, Commute (repOp U) (Z o c))
    (hs : ∀ o c, (Z o c).IsSymm) (φ : ℕ → ℕ → ℝ) {l : ℕ} (hl : 2 * l + 1 ≤ L) :
    factor Nx Ny Norb s (stepOp K U dt fun _ => 0) L Z φ (l + 1) ≤ factor Nx Ny Norb s (stepOp K U dt fun _ => 0) L Z φ l := by
  refine decreasing (fun l hl => ?_) (fun l hl => factor_symm hK U dt hx hy Z hZ hs φ (by omega)) hl
  have h1 := factor_convex (Norb := Norb) (s := s) (L := L) hK U dt hx hy Z hZ φ hl
  have h2 := factor_nonneg (Norb := Norb) (s := s) (L := L) hK U dt hx hy Z hZ φ l
  have h3 := factor_nonneg (Norb := Norb) (s := s) (L := L) hK U dt hx hy Z hZ φ (l + 2)
  refine le_of_sq_le_sq ?_ (add_nonneg h2 h3)
  nlinarith [sq_nonneg (factor Nx Ny Norb s (stepOp K U dt fun _ => 0) L Z φ l
    - factor Nx Ny Norb s (stepOp K U dt fun _ => 0) L Z φ (l + 2))]

/-! ### Operators which commute with the repulsion -/

omit [NeZero N] in
theorem repOp_comm_num (x : Mode N) : Commute (repOp U) (num x) := by
  rw [repOp_eq]
  exact commute_diagonal _ _

omit [NeZero N] in
theorem repOp_comm_x (a : Fin N) : Commute (repOp U) (opOf (xOp a)) := by
  rw [opOf_xOp, ← turn_z]
  have h : Commute (repOp U) (num (a, true) - num (a, false)) := (repOp_comm_num U _).sub_right (repOp_comm_num U _)
  show repOp U * _ = _ * repOp U
  nth_rewrite 1 [← turn_repOp (Real.pi / 4) U]
  nth_rewrite 2 [← turn_repOp (Real.pi / 4) U]
  rw [← turn_mul, h.eq, turn_mul]

omit [NeZero N] in
theorem num_mul_ann (x : Mode N) : num x * ann x = 0 := by
  have h : ann x * ann x = 0 := by
    have h1 := ann_anti x x
    rw [← two_smul ℝ] at h1
    exact (smul_eq_zero.1 h1).resolve_left two_ne_zero
  rw [num_eq, mul_assoc, h, mul_zero]

omit [NeZero N] in
theorem ann_mul_num (x : Mode N) : ann x * num x = ann x := by
  have h := ann_cre x x
  rw [if_pos rfl] at h
  rw [num_eq, ← mul_assoc, eq_sub_of_add_eq h, sub_mul, one_mul, ← num_eq, num_mul_ann, sub_zero]

omit [NeZero N] in
theorem num_comm_ann {x y : Mode N} (h : x ≠ y) : Commute (num x) (ann y) := by
  have h1 : ann y * cre x = -(cre x * ann y) := eq_neg_of_add_eq_zero_left ((ann_cre y x).trans (if_neg h.symm))
  have h2 : ann x * ann y = -(ann y * ann x) := eq_neg_of_add_eq_zero_left (ann_anti x y)
  show num x * ann y = ann y * num x
  rw [num_eq, ← mul_assoc, h1, mul_assoc, h2, neg_mul, mul_neg, mul_assoc]

omit [NeZero N] in
theorem repOp_comm_pair (a : Fin N) : Commute (repOp U) (ann (a, true) * ann (a, false)) := by
  set D : Op (Mode N) := ann (a, true) * ann (a, false) with hD
  have htf : ((a, true) : Mode N) ≠ (a, false) := by simp
  have l1 : num (a, true) * D = 0 := by rw [hD, ← mul_assoc, num_mul_ann, zero_mul]
  have l2 : num (a, false) * D = 0 := by
    rw [hD, ← mul_assoc, (num_comm_ann htf.symm).eq, mul_assoc, num_mul_ann, mul_zero]
  have r1 : D * num (a, true) = D := by
    rw [hD, mul_assoc, ← (num_comm_ann htf).eq, ← mul_assoc, ann_mul_num]
  have r2 : D * num (a, false) = D := by rw [hD, mul_assoc, ann_mul_num]
  unfold repOp
  refine Commute.sum_left _ _ _ fun i _ => Commute.smul_left ?_ _
  by_cases hi : i = a
  · subst hi
    show (num (i, true) - _) * (num (i, false) - _) * D = D * ((num (i, true) - _) * (num (i, false) - _))
    rw [mul_assoc, sub_mul (num (i, false)), l2, Matrix.smul_mul, one_mul, mul_sub, mul_zero, Matrix.mul_smul, sub_mul, l1,
      Matrix.smul_mul, one_mul, ← mul_assoc, mul_sub D, r1, Matrix.mul_smul, mul_one, sub_mul, mul_sub D, r2,
      Matrix.mul_smul, mul_one, Matrix.smul_mul, mul_sub D, r2, Matrix.mul_smul, mul_one]
    module
  · have h : ∀ sp, Commute (num (i, sp)) D := fun sp =>
      (num_comm_ann fun e => hi (congrArg Prod.fst e)).mul_right (num_comm_ann fun e => hi (congrArg Prod.fst e))
    exact ((h true).sub_left ((Commute.one_left D).smul_left _)).mul_left ((h false).sub_left ((Commute.one_left D).smul_left _))

include hK in
/-- C118, structure factors -/
theorem UneqHolds.relaxing (hx : 0 < Nx) (hy : 0 < Ny) {R : UneqF → ℤ → ℝ → Prop}
    (h : UneqHolds Nx Ny Norb L s t b1 (thermalPair (stepOp K U dt fun _ => 0) L) R) : Relaxing Nx Ny Norb L s R := by
  set H := stepOp K U dt fun _ => 0 with hH
  constructor
  · intro f hf
    have hf' : f ∈ [UneqF.geqltU, .geqltD, .gtau0U, .gtau0D, .g0tauU, .g0tauD, .nn, .zz, .xx] := by
      simp only [List.mem_cons, List.not_mem_nil, or_false] at hf ⊢
      tauto
    obtain ⟨Y, hY, hc, hs⟩ : ∃ Y : Fin N → Op (Mode N), (∀ l a b, uvalue (thermalPair H L) l a b f = thermalPair H L l (Y a) (Y b)ᵀ) ∧
        (∀ a, Commute (repOp U) (Y a)) ∧ ∀ a, (Y a).IsSymm := by
      simp only [List.mem_cons, List.not_mem_nil, or_false] at hf
      rcases hf with rfl | rfl | rfl
      · have e : ∀ a : Fin N, opOf (nOp true a ++ nOp false a) = num (a, true) + num (a, false) := fun a => by
          simp [opOf, nOp, num_eq]
        have hs : ∀ a : Fin N, (num (a, true) + num (a, false)).IsSymm := fun a => (num_symm _).add (num_symm _)
        exact ⟨fun a => num (a, true) + num (a, false), fun l a b => by beta_reduce; rw [(hs b).eq, ← e, ← e]; rfl,
          fun a => (repOp_comm_num U _).add_right (repOp_comm_num U _), hs⟩
      · have hs : ∀ a : Fin N, (num (a, true) - num (a, false)).IsSymm := fun a => (num_symm _).sub (num_symm _)
        exact ⟨fun a => num (a, true) - num (a, false), fun l a b => by beta_reduce; rw [(hs b).eq, ← opOf_zOp, ← opOf_zOp]; rfl,
          fun a => (repOp_comm_num U _).sub_right (repOp_comm_num U _), hs⟩
      · exact ⟨fun a => opOf (xOp a), fun l a b => by rw [(xOp_symm b).eq]; rfl, repOp_comm_x U, xOp_symm⟩
    set Z : ℕ → ℕ → Op (Mode N) := fun o c => Y (siteN N (Nx * Ny) o c) with hZ
    have hcZ : ∀ o c, Commute (repOp U) (Z o c) := fun o c => hc _
    have hsZ : ∀ o c, (Z o c).IsSymm := fun o c => hs _
    refine ⟨fun l o p d => cellAvg (Nx * Ny) fun c =>
      thermalPair H L l (Z o c) (Z p (moveCell Nx Ny s c (d % Nx : ℕ) (d / Nx : ℕ)))ᵀ, fun l o p d hl ho hp hd => ?_, fun φ => ?_⟩
    · have h1 := h.corr f hf' l o p hl ho hp (d % Nx : ℕ) (d / Nx : ℕ)
      rw [← cell_coords hx s hd] at h1
      simpa only [hY] using h1
    · have key : ∀ l, strucFactor Nx Ny Norb s φ (fun o p d => cellAvg (Nx * Ny) fun c =>
          thermalPair H L l (Z o c) (Z p (moveCell Nx Ny s c (d % Nx : ℕ) (d / Nx : ℕ)))ᵀ) = factor Nx Ny Norb s H L Z φ l := fun l => rfl
      simp only [key]
      refine ⟨fun l _ => factor_nonneg hK U dt hx hy Z hcZ φ l, fun l h0 hl => ⟨factor_symm hK U dt hx hy Z hcZ hsZ φ (by omega), ?_⟩,
        fun l _ hl => factor_decreasing hK U dt hx hy Z hcZ hsZ φ hl⟩
      have h2 := factor_convex (Norb := Norb) (s := s) (L := L) hK U dt hx hy Z hcZ φ (l := l - 1) (by omega)
      rw [show l - 1 + 1 = l by omega, show l - 1 + 2 = l + 1 by omega] at h2
      by_cases he : l + 1 = L
      · rw [he, Nat.mod_self]
        rw [he, factor_symm hK U dt hx hy Z hcZ hsZ φ (show 0 + L = L by omega)] at h2
        exact h2
      · rw [Nat.mod_eq_of_lt (by omega)]
        exact h2
  · intro o ho
    have e : ∀ c, pairOf (onsitePair (N := N) Nx Ny o c)
        = ann (siteN N (Nx * Ny) o c, true) * ann (siteN N (Nx * Ny) o c, false) := fun c => by
      simp [pairOf, onsitePair]
    set Z : ℕ → ℕ → Op (Mode N) := fun _ c => pairOf (onsitePair Nx Ny o c) with hZ
    have hcZ : ∀ o c, Commute (repOp U) (Z o c) := fun _ c => by
      rw [hZ]
      beta_reduce
      rw [e]
      exact repOp_comm_pair U _
    refine ⟨fun l d => cellAvg (Nx * Ny) fun c =>
      thermalPair H L l (Z 0 c) (Z 0 (moveCell Nx Ny s c (d % Nx : ℕ) (d / Nx : ℕ)))ᵀ, fun l d hl hd => ?_, fun φ => ?_⟩
    · have h1 := h.pair .scSw (by simp) (by simp) l o hl ho (d % Nx : ℕ) (d / Nx : ℕ)
      rw [← cell_coords hx s hd] at h1
      exact h1
    · have key : ∀ l, strucFactor Nx Ny 1 s (fun _ => φ) (fun _ _ d => cellAvg (Nx * Ny) fun c =>
          thermalPair H L l (Z 0 c) (Z 0 (moveCell Nx Ny s c (d % Nx : ℕ) (d / Nx : ℕ)))ᵀ)
          = factor Nx Ny 1 s H L Z (fun _ => φ) l := fun l => rfl
      simp only [key]
      refine ⟨fun l _ => factor_nonneg hK U dt hx hy Z hcZ _ l, fun l h0 hl => ?_⟩
      have h2 := factor_convex (Norb := 1) (s := s) (L := L) hK U dt hx hy Z hcZ (fun _ => φ) (l := l - 1) (by omega)
      rw [show l - 1 + 1 = l by omega, show l - 1 + 2 = l + 1 by omega] at h2
      exact h2

end factors

/-! ## Runs of the program -/

variable {σ : Type} [MeasurableSpace σ] {P : Measure σ} {mc : Machine} {p : SimParams ℝ}

omit [NeZero N] in
/-- C118 for runs which start in equilibrium: the expected results -/
theorem program_timeReflection [NeZero (sites p)] (hmc : mc.Rounds) (hv : Admissible p) (hg : Guards p)
    (hN : sites p < 2 ^ 31) (hp : p.usePhonons = false) (fnbase : String) (rng : Rng σ) (hlaw : rng.Lawful (sites p))
    (hP : rng.Ideal (sites p) P) (sys : Sys Seed (sites p) MeasData) (hsys : sysOf mc p = some sys)
    (hw : ∀ s, sys.weight p.L.toNat s (fun _ _ => 1) ≠ 0) (stop : ℤ → Bool) (it : ℤ) (X expX : ℕ → Fin (sites p) → ℝ)
    (cnt : Counters) (maxNsampl : ℕ) :
    let L := p.L.toNat
    let cfg := (mkSetup mc p fnbase).cfg
    let sys' := sys.withRng rng
    ∃ R : Field L (sites p) → σ → LoopResult (State σ (sites p) MeasData),
      (∀ x r, simulate sys' (mkSetup mc p fnbase).ph cfg stop it r (Fock.extend x) X expX cnt
        (MeasData.allocate maxNsampl) = some (R x r)) ∧
      (0 < uneqCount cfg stop it →
        let Q : UneqF → ℤ → ℝ → Prop := fun f z v => expected sys' L P (fun x r => (R x r).state.meas.uneq.arr f z) /
          expected sys' L P (fun x r => (R x r).state.meas.uneq.sign) = v
        TimeSymmetric p.Nx.toNat p.Ny.toNat p.Norb.toNat L p.pbcShift (p.Nx.toNat = 1 ↔ p.Ny.toNat = 1) Q ∧
        Relaxing p.Nx.toNat p.Ny.toNat p.Norb.toNat L p.pbcShift Q) := by
  intro L cfg sys'
  have h2 := hv.nx
  have h3 := hv.ny
  obtain ⟨R, h1, -, -, h4⟩ := program_expected hmc hv hg hN hp fnbase rng hlaw hP sys hsys hw stop it X expX cnt maxNsampl
  refine ⟨R, h1, fun hc => ?_⟩
  intro Q
  have h5 := (uneqThermal_iff _ _ _ _ _ _ _ _ _).1 (h4 hc)
  exact ⟨h5.timeSymmetric (by omega) (by omega) (thermalPair_timeInvariant _ _), h5.relaxing (bondMatrix_symm p) _ _ (by omega) (by omega)⟩

omit [NeZero N] in
/-- C118 for runs from scratch: the limits of the results -/
theorem program_timeReflection_limit [NeZero (sites p)] (hmc : mc.Rounds) (hv : Admissible p) (hg : Guards p)
    (hN : sites p < 2 ^ 31) (hp : p.usePhonons = false) (fnbase : String) (rng : Rng σ) (hlaw : rng.Lawful (sites p))
    (hP : rng.Ideal (sites p) P) (sys : Sys Seed (sites p) MeasData) (hsys : sysOf mc p = some sys)
    (hw : ∀ s, sys.weight p.L.toNat s (fun _ _ => 1) ≠ 0)
    (hr : ∀ i : Fin (sites p), p.U ((i.val / (p.Nx.toNat * p.Ny.toNat) : ℕ) : ℤ) = 0 ∨
      ∀ l < p.L.toNat, ∀ x : Field p.L.toNat (sites p),
        sys.weight p.L.toNat (Fock.extend (flipAt l i x)) (fun _ _ => 1)
          ≠ sys.weight p.L.toNat (Fock.extend x) (fun _ _ => 1))
    (hnq : 0 ≤ p.nequil) (hu : 0 < p.nuneqlt) (X expX : ℕ → Fin (sites p) → ℝ) (cnt : Counters) (maxNsampl : ℕ) :
    let L := p.L.toNat
    let cfg := (mkSetup mc p fnbase).cfg
    let sys' := sys.withRng rng
    ∃ R : ℕ → σ → LoopResult (State σ (sites p) MeasData),
      (∀ (n : ℕ) r, simulate sys' (mkSetup mc p fnbase).ph { cfg with nsampl := n } (fun _ => false) 0
        (freshField rng L (sites p) r).2 (Fock.extend (freshField rng L (sites p) r).1) X expX cnt
        (MeasData.allocate maxNsampl) = some (R n r)) ∧
      (let Q : UneqF → ℤ → ℝ → Prop := fun f z v =>
          Converges P (fun n (_ : Unit) r => (R n r).state.meas.uneq.arr f z / (R n r).state.meas.uneq.sign) v;
        TimeSymmetric p.Nx.toNat p.Ny.toNat p.Norb.toNat L p.pbcShift (p.Nx.toNat = 1 ↔ p.Ny.toNat = 1) Q ∧
        Relaxing p.Nx.toNat p.Ny.toNat p.Norb.toNat L p.pbcShift Q) := by
  intro L cfg sys'
  have h2 := hv.nx
  have h3 := hv.ny
  obtain ⟨R, h1, -, h4⟩ := program_fresh_converges hmc hv hg hN hp fnbase rng hlaw hP sys hsys hw hr hnq X expX cnt maxNsampl
  refine ⟨R, h1, ?_⟩
  intro Q
  have h5 := h4 hu
  exact ⟨h5.timeSymmetric (by omega) (by omega) (thermalPair_timeInvariant _ _), h5.relaxing (bondMatrix_symm p) _ _ (by omega) (by omega)⟩

omit [NeZero N] in
/-- C118 for runs with phonons which start in equilibrium: the expected results at the times `l` and `L - l` -/
theorem program_timeReflection_ph {rest : Measure ℝ} [SigmaFinite rest] [NeZero (sites p)] (hmc : mc.Rounds)
    (hv : Admissible p) (hg : Guards p)
    (hN : sites p < 2 ^ 31) (hp : p.usePhonons = true) (hL : 2 ≤ p.L) (hdt : 0 < p.dt)
    (hcoupled : ∀ o : ℕ, o < p.Norb.toNat → p.phonon.g o ≠ 0) (homega : ∀ o : ℕ, o < p.Norb.toNat → p.phonon.omega o ≠ 0)
    (hrest : Light rest) (fnbase : String) (rng : Rng σ) (hlaw : rng.Lawful (sites p)) (hP : rng.Ideal (sites p) P)
    (sys : Sys Seed (sites p) MeasData) (hsys : sysOf mc p = some sys) (stop : ℤ → Bool) (it : ℤ) (cnt : Counters) :
    let L := p.L.toNat
    let cfg := (mkSetup mc p fnbase).cfg
    let sys' := sys.withRng rng
    let E := fun f => expectedPh sys' (phOf p) rest L P f
    ∃ R : Conf L (sites p) × σ → LoopResult (State σ (sites p) MeasData),
      (∀ᵐ y ∂(confDist sys' (phOf p) rest L).prod P, simulate sys' (phOf p) cfg stop it y.2 (Fock.extend y.1.1)
        (extendX y.1.2) (sys'.expOf (phOf p) (extendX y.1.2)) cnt (MeasData.allocate (mkSetup mc p fnbase).maxNsampl)
          = some (R y)) ∧
      (0 < uneqCount cfg stop it → TimeSymmetric p.Nx.toNat p.Ny.toNat p.Norb.toNat L p.pbcShift
        (p.Nx.toNat = 1 ↔ p.Ny.toNat = 1)
        fun f z v => E (fun y => (R y).state.meas.uneq.arr f z) / E (fun y => (R y).state.meas.uneq.sign) = v) := by
  intro L cfg sys' E
  have h2 := hv.nx
  have h3 := hv.ny
  have : NeZero L := ⟨by show p.L.toNat ≠ 0; omega⟩
  obtain ⟨R, h1, -, h4⟩ := program_expected_ph hmc hv hg hN hp hL hdt hcoupled homega hrest fnbase rng hlaw hP sys hsys stop
    it cnt
  refine ⟨R, h1, fun hc => ?_⟩
  have h5 := (uneqThermal_iff _ _ _ _ _ _ _ _ _).1 (h4 hc)
  refine h5.timeSymmetric (by omega) (by omega) ?_
  have e : (fun l X Y => holsteinMean p rest L l (fun _ => 1) X Y)
      = fun l => holsteinPair sys (phOf p) rest (bondMatrix p) (fun o => p.U o) L l fun _ => 1 := by
    funext l X Y
    exact (holsteinPair_eq (program_describes hv hg sys hsys).1 L l _ X Y).symm
  rw [e]
  exact holstein_timeInvariant

/-! ## Examples -/

/-- an amplitude on a single cell gives the correlation of a site with itself -/
example (v : ℕ → ℕ → ℕ → ℝ) : strucFactor 2 1 1 0 (fun _ c => if c = 0 then 1 else 0) v = v 0 0 0 := by
  have h0 : moveCell 2 1 0 0 0 0 = 0 := by decide
  have h1 : moveCell 2 1 0 0 1 0 = 1 := by decide
  simp [strucFactor, Finset.sum_range_succ, h0, h1]

/-- equal amplitudes on all cells give the sum over all displacements -/
example (v : ℕ → ℕ → ℕ → ℝ) : strucFactor 2 1 1 0 (fun _ _ => 1) v = 2 * v 0 0 0 + 2 * v 0 0 1 := by
  simp [strucFactor, Finset.sum_range_succ]

/-- the hypotheses can be met: the small system with two time slices -/
example : ∃ (mc : Machine) (sys : Sys Seed (sites exU) MeasData) (R : ℕ → (ℕ → Draw (sites exU)) → LoopResult
    (State (ℕ → Draw (sites exU)) (sites exU) MeasData)), sysOf mc exU = some sys ∧
    TimeSymmetric 1 1 1 2 0 (1 = 1 ↔ 1 = 1) (fun f z v => Converges (independent (drawDist (sites exU)))
      (fun n (_ : Unit) r => (R n r).state.meas.uneq.arr f z / (R n r).state.meas.uneq.sign) v) ∧
    Relaxing 1 1 1 2 0 (fun f z v => Converges (independent (drawDist (sites exU)))
      (fun n (_ : Unit) r => (R n r).state.meas.uneq.arr f z / (R n r).state.meas.uneq.sign) v) := by
  obtain ⟨mc, sys, hmc, hv, hg, hsys, hw, hr, hlaw, hid, hnq, -, -, hu⟩ := exU_conditions
  obtain ⟨R, -, h1, h2⟩ := program_timeReflection_limit hmc hv hg (by decide) rfl "" _ hlaw hid sys hsys hw hr hnq hu
    (fun _ _ => 0) (fun _ _ => 1) ⟨0, 0, 0, 0, 0, 0⟩ 0
  exact ⟨mc, sys, R, hsys, h1, h2⟩

end Verif.MonteCarlo
