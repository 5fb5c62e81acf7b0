import Verif.Lemmas.Reflection
import Verif.Props.Holstein
import Mathlib.MeasureTheory.Measure.Haar.OfBasis
import Mathlib.Analysis.SpecialFunctions.Gaussian.GaussianIntegral

/-! # Property C106: the partition function is positive -/

set_option autoImplicit false

namespace Verif.MonteCarlo

open Matrix MeasureTheory Verif.Lapack Verif.TimeFlow Verif.Fock Verif.Greens Verif.GreensUneq Verif.Measurement
open Verif.Reflection

/-! ## Products along a closed path -/

section Products

variable {p : Type} [Fintype p] [DecidableEq p]

/-- the factors between slice 0 and slice `k + 1` -/
def between (A : Matrix p p ℝ) (d : ℕ → p → ℝ) (k : ℕ) : Matrix p p ℝ :=
  A * oprod (fun j => diagonal (d (1 + j)) * A) k

theorem oprod_front {R : Type} [Monoid R] (t : ℕ → R) (n : ℕ) : oprod t (n + 1) = oprod (fun j => t (1 + j)) n * t 0 := by
  rw [Nat.add_comm, oprod_add, oprod, oprod, mul_one]

theorem oprod_transpose {A : Matrix p p ℝ} (hA : A.IsSymm) (d : ℕ → p → ℝ) (n : ℕ) :
    (A * oprod (fun j => diagonal (d j) * A) n)ᵀ = A * oprod (fun j => diagonal (d (n - 1 - j)) * A) n := by
  induction n with
  | zero => rw [oprod, oprod, mul_one, hA]
  | succ n ih =>
    rw [oprod, oprod_front, mul_assoc (diagonal (d n)), transpose_mul, transpose_mul, diagonal_transpose, ih, hA,
      mul_assoc, mul_assoc]
    congr 2
    refine oprod_congr fun l hl => ?_
    rw [show n + 1 - 1 - (1 + l) = n - 1 - l by omega]

/-- the trace of the factors along a closed path is a sum of products of the two halves -/
theorem trace_halves {A : Matrix p p ℝ} (hA : A.IsSymm) (d e : ℕ → p → ℝ) {L k : ℕ} (hL : L = 2 * (k + 1))
    (he : ∀ j, 1 ≤ j → j ≤ k → e j = d (L - j)) :
    (oprod (fun j => diagonal (d j) * A) L).trace
      = ∑ S, ∑ T, d (k + 1) S * d 0 T * (between A d k S T * between A e k S T) := by
  have h1 : A * oprod (fun j => diagonal (d (k + 2 + j)) * A) k = (between A e k)ᵀ := by
    unfold between
    rw [oprod_transpose hA (fun j => e (1 + j))]
    congr 1
    refine oprod_congr fun l hl => ?_
    rw [he _ (by omega) (by omega), show L - (1 + (k - 1 - l)) = k + 2 + l by omega]
  have h2 : oprod (fun j => diagonal (d j) * A) L
      = oprod (fun j => diagonal (d (k + 2 + j)) * A) k * (diagonal (d (k + 1)) * between A d k * diagonal (d 0)) * A := by
    rw [hL, show 2 * (k + 1) = k + 2 + k by omega, oprod_add, oprod, oprod_front]
    unfold between
    simp only [mul_assoc]
  rw [h2, trace_mul_comm, ← mul_assoc, h1, trace]
  simp only [diag_apply, mul_apply (M := (between A e k)ᵀ), transpose_apply, mul_diagonal, diagonal_mul]
  rw [Finset.sum_comm]
  exact Finset.sum_congr rfl fun S _ => Finset.sum_congr rfl fun T _ => by ring

/-- a state which is mapped to itself -/
def Fixes (A : Matrix p p ℝ) (v : p) : Prop := 0 < A v v ∧ ∀ S, S ≠ v → A S v = 0

omit [DecidableEq p] in
theorem Fixes.mul {A B : Matrix p p ℝ} {v : p} (hA : Fixes A v) (hB : Fixes B v) : Fixes (A * B) v := by
  have h : ∀ S, (A * B) S v = A S v * B v v := by
    intro S
    rw [mul_apply, Finset.sum_eq_single v]
    · intro T _ hT
      rw [hB.2 T hT, mul_zero]
    · simp
  refine ⟨?_, fun S hS => ?_⟩
  · rw [h]
    exact mul_pos hA.1 hB.1
  · rw [h, hA.2 S hS, zero_mul]

omit [Fintype p] in
theorem Fixes.diagonal {d : p → ℝ} {v : p} (h : 0 < d v) : Fixes (diagonal d) v :=
  ⟨by rwa [diagonal_apply_eq], fun _ hS => diagonal_apply_ne _ hS⟩

theorem Fixes.oprod {t : ℕ → Matrix p p ℝ} {v : p} (h : ∀ j, Fixes (t j) v) (n : ℕ) : Fixes (Fock.oprod t n) v := by
  induction n with
  | zero => exact ⟨by rw [Fock.oprod, one_apply_eq]; exact one_pos, fun _ hS => by rw [Fock.oprod, one_apply_ne hS]⟩
  | succ n ih => exact (h n).mul ih

end Products

/-! ## The factors of the model -/

variable {σ : Type} {N : ℕ} {M : Type} {L : ℕ}

/-- the propagator maps the vacuum to itself -/
theorem gamma_keeps {m : Type} [Fintype m] [LinearOrder m] (A : Matrix m m ℝ) : Fixes (gamma A) (∅ : Finset m) := by
  have h : ∀ S, gamma A S ∅ = if S = ∅ then 1 else 0 := by
    intro S
    rw [gamma, mat_apply]
    show (base m).repr (ExteriorAlgebra.map (toLin' A) (base m ∅)) S = _
    rw [base_empty, map_one, ← base_empty, Module.Basis.repr_self, Finsupp.single_apply]
    exact if_congr eq_comm rfl rfl
  exact ⟨by rw [h, if_pos rfl]; exact one_pos, fun S hS => by rw [h, if_neg hS]⟩

/-- the propagator is symmetric -/
theorem hop_symm {K : Mat N} (hK : K.IsSymm) (dt : ℝ) : (NormedSpace.exp (-dt • hopOp K) : Op (Mode N)).IsSymm := by
  have h : (hopOp K)ᵀ = hopOp K := by
    rw [hopOp_eq]
    exact oneBody_symm (both_symm hK)
  unfold Matrix.IsSymm
  rw [← exp_transpose, transpose_smul, h]

/-- exponent of the factor which is diagonal in the occupation numbers -/
noncomputable def onsite (sys : Sys σ N M) (ph : Phonon) (U : ℕ → ℝ) (y : Fin N → ℝ) (S : Finset (Mode N)) : ℝ :=
  -ph.dt * (∑ i, U (sys.orb i) * ((occN S (i, true) - 1 / 2) * (occN S (i, false) - 1 / 2))
    + ∑ i, ph.g (sys.orb i) * y i * (occN S (i, true) + occN S (i, false)))

theorem stepAt_eq (sys : Sys σ N M) (ph : Phonon) (K : Mat N) (U : ℕ → ℝ) (y : Fin N → ℝ) :
    stepAt sys ph K U y = diagonal (fun S => Real.exp (onsite sys ph U y S)) * NormedSpace.exp (-ph.dt • hopOp K) := by
  unfold stepAt stepOp
  congr 1
  rw [repOp_eq, potOp_eq, ← diagonal_smul, ← diagonal_smul, exp_diag, exp_diag, diagonal_mul_diagonal]
  congr 1
  funext S
  rw [← Real.exp_add, onsite, mul_add]
  rfl

/-- energy of the link between the coordinates `y` and `z` at neighbouring slices -/
noncomputable def link (sys : Sys σ N M) (ph : Phonon) (y z : Fin N → ℝ) : ℝ :=
  ∑ i, (ph.omega (sys.orb i) ^ 2 * y i ^ 2 / 2 / 2 + ph.omega (sys.orb i) ^ 2 * z i ^ 2 / 2 / 2 + ((z i - y i) / ph.dt) ^ 2 / 2)

theorem link_symm (sys : Sys σ N M) (ph : Phonon) (y z : Fin N → ℝ) : link sys ph y z = link sys ph z y := by
  unfold link
  refine Finset.sum_congr rfl fun i _ => ?_
  rw [show (y i - z i) / ph.dt = -((z i - y i) / ph.dt) by ring, neg_sq]
  ring

theorem sum_rotate (f : ℕ → ℝ) (hL : 0 < L) : ∑ l ∈ Finset.range L, f ((l + 1) % L) = ∑ l ∈ Finset.range L, f l := by
  obtain ⟨n, rfl⟩ : ∃ n, L = n + 1 := ⟨L - 1, by omega⟩
  rw [Finset.sum_range_succ, Nat.mod_self, Finset.sum_range_succ' (fun l => f l)]
  congr 1
  refine Finset.sum_congr rfl fun l hl => ?_
  rw [Nat.mod_eq_of_lt (by have := Finset.mem_range.1 hl; omega)]

/-- the energy of a closed path is the sum of the energies of its links -/
theorem energy_links (sys : Sys σ N M) (ph : Phonon) (hL : 0 < L) (X : ℕ → Fin N → ℝ) :
    sys.energy ph L X = ∑ l ∈ Finset.range L, link sys ph (X l) (X ((l + 1) % L)) := by
  unfold Sys.energy pathEnergy link
  refine Eq.trans ?_ Finset.sum_comm
  refine Finset.sum_congr rfl fun i _ => ?_
  have h := sum_rotate (fun l => ph.omega (sys.orb i) ^ 2 * X l i ^ 2 / 2 / 2) hL
  simp only [Finset.sum_add_distrib]
  rw [h]
  simp only [← Finset.sum_div]
  ring

/-- the energy of the links between slice 0 and slice `n` -/
noncomputable def halfEnergy (sys : Sys σ N M) (ph : Phonon) (n : ℕ) (X : ℕ → Fin N → ℝ) : ℝ :=
  ∑ l ∈ Finset.range n, link sys ph (X l) (X (l + 1))

theorem extendX_back {k : ℕ} (hL : L = 2 * (k + 1)) (x : Paths L N) (l : ℕ) (h0 : l < L) :
    extendX (fun j => x (back hL j)) l = extendX x ((L - l) % L) := by
  funext i
  unfold extendX
  rw [dif_pos h0, dif_pos (Nat.mod_lt _ (by omega))]
  rfl

theorem energy_halves (sys : Sys σ N M) (ph : Phonon) {k : ℕ} (hL : L = 2 * (k + 1)) (x : Paths L N) :
    sys.energy ph L (extendX x)
      = halfEnergy sys ph (k + 1) (extendX x) + halfEnergy sys ph (k + 1) (extendX fun j => x (back hL j)) := by
  rw [energy_links sys ph (by omega), show Finset.range L = Finset.range (k + 1 + (k + 1)) by rw [hL]; congr 1; omega,
    Finset.sum_range_add]
  unfold halfEnergy
  congr 1
  · refine Finset.sum_congr rfl fun l hl => ?_
    rw [Nat.mod_eq_of_lt (by have := Finset.mem_range.1 hl; omega)]
  · rw [← Finset.sum_range_reflect]
    refine Finset.sum_congr rfl fun l hl => ?_
    have hl' := Finset.mem_range.1 hl
    rw [extendX_back hL x l (by omega), extendX_back hL x (l + 1) (by omega), link_symm]
    rw [Nat.mod_eq_of_lt (show L - (l + 1) < L by omega)]
    rw [show k + 1 + (k + 1 - 1 - l) = L - (l + 1) by omega, show L - (l + 1) + 1 = L - l by omega]

/-! ## The two halves of the path integral -/

/-- the part of the integrand which depends on the slices 0 to `k + 1` -/
noncomputable def halfPart (sys : Sys σ N M) (ph : Phonon) (K : Mat N) (U : ℕ → ℝ) (k : ℕ) (S T : Finset (Mode N))
    (x : Paths L N) : ℝ :=
  Real.exp (onsite sys ph U (extendX x (k + 1)) S / 2) * Real.exp (onsite sys ph U (extendX x 0) T / 2)
    * between (NormedSpace.exp (-ph.dt • hopOp K)) (fun j S => Real.exp (onsite sys ph U (extendX x j) S)) k S T
    * Real.exp (-ph.dt * halfEnergy sys ph (k + 1) (extendX x))

theorem halfPart_congr {sys : Sys σ N M} {ph : Phonon} {K : Mat N} {U : ℕ → ℝ} {k : ℕ} (hL : L = 2 * (k + 1))
    (S T : Finset (Mode N)) (x y : Paths L N) (h : ∀ j : Fin L, j.val ≤ k + 1 → x j = y j) :
    halfPart sys ph K U k S T x = halfPart sys ph K U k S T y := by
  have hx : ∀ l ≤ k + 1, extendX x l = extendX y l := by
    intro l hl
    funext i
    unfold extendX
    rw [dif_pos (by omega), dif_pos (by omega), h ⟨l, by omega⟩ hl]
  have hb : between (NormedSpace.exp (-ph.dt • hopOp K)) (fun j S => Real.exp (onsite sys ph U (extendX x j) S)) k
      = between (NormedSpace.exp (-ph.dt • hopOp K)) (fun j S => Real.exp (onsite sys ph U (extendX y j) S)) k := by
    unfold between
    congr 1
    refine oprod_congr fun l hl => ?_
    beta_reduce
    rw [hx _ (by omega)]
  have he : halfEnergy sys ph (k + 1) (extendX x) = halfEnergy sys ph (k + 1) (extendX y) := by
    unfold halfEnergy
    refine Finset.sum_congr rfl fun l hl => ?_
    have := Finset.mem_range.1 hl
    rw [hx _ (by omega), hx _ (by omega)]
  unfold halfPart
  rw [hb, he, hx _ le_rfl, hx _ (by omega)]

variable {sys : Sys σ N M} {ph : Phonon} {rest : Measure ℝ} {K : Mat N} {U : ℕ → ℝ}

/-- the integrand of the partition function is a sum of products of the two halves -/
theorem integrand_halves (hK : K.IsSymm) {k : ℕ} (hL : L = 2 * (k + 1)) (x : Paths L N) :
    electronTrace sys ph K U L 0 1 1 x * Real.exp (-ph.dt * sys.energy ph L (extendX x))
      = ∑ S, ∑ T, halfPart sys ph K U k S T x * halfPart sys ph K U k S T fun j => x (back hL j) := by
  have h := trace_halves (hop_symm hK ph.dt) (fun j S => Real.exp (onsite sys ph U (extendX x j) S))
    (fun j S => Real.exp (onsite sys ph U (extendX (fun j => x (back hL j)) j) S)) hL (fun j h1 h2 => by
      funext S
      rw [extendX_back hL x j (by omega), Nat.mod_eq_of_lt (by omega)])
  have e0 : extendX (fun j => x (back hL j)) 0 = extendX x 0 := by
    rw [extendX_back hL x 0 (by omega), Nat.sub_zero, Nat.mod_self]
  have e1 : extendX (fun j => x (back hL j)) (k + 1) = extendX x (k + 1) := by
    rw [extendX_back hL x (k + 1) (by omega), Nat.mod_eq_of_lt (by omega), show L - (k + 1) = k + 1 by omega]
  unfold electronTrace
  simp only [Nat.zero_add, Nat.sub_zero, stepAt_eq]
  rw [show oprod (fun j => diagonal (fun S => Real.exp (onsite sys ph U (extendX x j) S))
    * NormedSpace.exp (-ph.dt • hopOp K)) 0 = 1 from rfl, mul_one, mul_one, mul_one, h, Finset.sum_mul]
  refine Finset.sum_congr rfl fun S _ => ?_
  rw [Finset.sum_mul]
  refine Finset.sum_congr rfl fun T _ => ?_
  unfold halfPart
  rw [e0, e1, energy_halves sys ph hL x, mul_add, Real.exp_add]
  have h2 : ∀ a : ℝ, Real.exp a = Real.exp (a / 2) * Real.exp (a / 2) := fun a => by rw [← Real.exp_add, add_halves]
  rw [h2 (onsite sys ph U (extendX x (k + 1)) S), h2 (onsite sys ph U (extendX x 0) T)]
  ring

theorem onsite_tame (c : ℝ) (l : ℕ) (S : Finset (Mode N)) :
    Tame fun x : Paths L N => Real.exp (c * onsite sys ph U (extendX x l) S) := by
  have e : (fun x : Paths L N => Real.exp (c * onsite sys ph U (extendX x l) S)) = fun x =>
      Real.exp (c * (-ph.dt * ∑ i, U (sys.orb i) * ((occN S (i, true) - 1 / 2) * (occN S (i, false) - 1 / 2))))
      * ∏ i, Real.exp ((c * -ph.dt * ph.g (sys.orb i) * (occN S (i, true) + occN S (i, false))) * extendX x l i) := by
    funext x
    rw [← Real.exp_sum, ← Real.exp_add, onsite, mul_add, mul_add]
    congr 2
    rw [Finset.mul_sum, Finset.mul_sum]
    exact Finset.sum_congr rfl fun i _ => by ring
  rw [e]
  exact (Tame.prod _ fun i _ => Tame.exp _ l i).smul _

theorem between_tame (f : ℕ → ℕ) (k : ℕ) (S T : Finset (Mode N)) :
    Tame fun x : Paths L N => between (NormedSpace.exp (-ph.dt • hopOp K))
      (fun j S => Real.exp (onsite sys ph U (extendX x (f j)) S)) k S T := by
  have h : TameM fun x : Paths L N => between (NormedSpace.exp (-ph.dt • hopOp K))
      (fun j S => Real.exp (onsite sys ph U (extendX x (f j)) S)) k := by
    unfold between
    refine TameM.mul (TameM.const _) (TameM.oprod (A := fun j x => diagonal (fun S =>
      Real.exp (onsite sys ph U (extendX x (f (1 + j))) S)) * NormedSpace.exp (-ph.dt • hopOp K)) (fun j => ?_) k)
    refine TameM.mul (TameM.diagonal fun S => ?_) (TameM.const _)
    simpa using onsite_tame (sys := sys) (ph := ph) (U := U) (L := L) 1 (f (1 + j)) S
  exact h S T

variable [SigmaFinite rest]

theorem halfPart_integrable (hr : Light rest) (hdt : 0 < ph.dt) (hom : ∀ i, ph.g (sys.orb i) ≠ 0 → ph.omega (sys.orb i) ≠ 0)
    {k : ℕ} (hL : L = 2 * (k + 1)) (S T : Finset (Mode N)) :
    Integrable (fun x : Paths L N => halfPart sys ph K U k S T x * halfPart sys ph K U k S T fun j => x (back hL j))
      (pathBase sys ph rest L) := by
  have h := Tame.integrable (sys := sys) hr hdt hom
    ((((onsite_tame (sys := sys) (ph := ph) (U := U) (L := L) (1 / 2) (k + 1) S).mul (onsite_tame (sys := sys) (ph := ph) (U := U) (1 / 2) 0 T)).mul
      (between_tame (sys := sys) (ph := ph) (K := K) (U := U) id k S T)).mul
    (((onsite_tame (sys := sys) (ph := ph) (U := U) (L := L) (1 / 2) (k + 1) S).mul (onsite_tame (sys := sys) (ph := ph) (U := U) (1 / 2) 0 T)).mul
      (between_tame (sys := sys) (ph := ph) (K := K) (U := U) (fun j => (L - j) % L) k S T)))
  refine h.congr (Filter.Eventually.of_forall fun x => ?_)
  have e0 : extendX (fun j => x (back hL j)) 0 = extendX x 0 := by
    rw [extendX_back hL x 0 (by omega), Nat.sub_zero, Nat.mod_self]
  have e1 : extendX (fun j => x (back hL j)) (k + 1) = extendX x (k + 1) := by
    rw [extendX_back hL x (k + 1) (by omega), Nat.mod_eq_of_lt (by omega), show L - (k + 1) = k + 1 by omega]
  have e2 : between (NormedSpace.exp (-ph.dt • hopOp K)) (fun j S => Real.exp (onsite sys ph U (extendX (fun j => x (back hL j)) j) S)) k
      = between (NormedSpace.exp (-ph.dt • hopOp K)) (fun j S => Real.exp (onsite sys ph U (extendX x ((L - j) % L)) S)) k := by
    unfold between
    congr 1
    refine oprod_congr fun l hl => ?_
    beta_reduce
    rw [extendX_back hL x (1 + l) (by omega)]
  show _ = halfPart sys ph K U k S T x * halfPart sys ph K U k S T fun j => x (back hL j)
  unfold halfPart
  beta_reduce
  rw [e0, e1, e2, energy_halves sys ph hL x, mul_add, Real.exp_add]
  have h2 : ∀ a : ℝ, 1 / 2 * a = a / 2 := fun a => by ring
  simp only [h2, id]
  ring

theorem halfPart_vacuum {k : ℕ} (x : Paths L N) : 0 < halfPart sys ph K U k ∅ ∅ x := by
  have hA : Fixes (NormedSpace.exp (-ph.dt • hopOp K)) (∅ : Finset (Mode N)) := by
    rw [exp_hopOp]
    exact gamma_keeps _
  have h : Fixes (between (NormedSpace.exp (-ph.dt • hopOp K)) (fun j S => Real.exp (onsite sys ph U (extendX x j) S)) k)
      (∅ : Finset (Mode N)) := 
    hA.mul (Fixes.oprod (t := fun j => diagonal (fun S => Real.exp (onsite sys ph U (extendX x (1 + j)) S))
      * NormedSpace.exp (-ph.dt • hopOp K)) (fun j => Fixes.mul (Fixes.diagonal (Real.exp_pos _)) hA) k)
  unfold halfPart
  exact mul_pos (mul_pos (mul_pos (Real.exp_pos _) (Real.exp_pos _)) h.1) (Real.exp_pos _)

theorem pathBase_ne_zero (h0 : rest ≠ 0) : pathBase sys ph rest L ≠ 0 := by
  have h1 : ∀ i, siteBase sys ph rest i Set.univ ≠ 0 := by
    intro i
    unfold siteBase
    split
    · exact fun h => h0 (Measure.measure_univ_eq_zero.1 h)
    · simp
  intro h
  have e : pathBase sys ph rest L Set.univ = 0 := by rw [h]; rfl
  unfold pathBase at e
  rw [Measure.pi_univ] at e
  obtain ⟨l, -, hl⟩ := Finset.prod_eq_zero_iff.1 e
  rw [Measure.pi_univ] at hl
  obtain ⟨i, -, hi⟩ := Finset.prod_eq_zero_iff.1 hl
  exact h1 i hi

/-- the partition function of the Hubbard-Holstein model is positive for even numbers of slices -/
theorem partition_positive_even (hr : Light rest) (h0 : rest ≠ 0) (hdt : 0 < ph.dt)
    (hom : ∀ i, ph.g (sys.orb i) ≠ 0 → ph.omega (sys.orb i) ≠ 0) (hK : K.IsSymm) (hL : Even L) (hpos : 0 < L) :
    0 < holsteinZ sys ph rest K U L := by
  obtain ⟨m, hm⟩ := hL
  obtain ⟨k, rfl⟩ : ∃ k, m = k + 1 := ⟨m - 1, by omega⟩
  have hL : L = 2 * (k + 1) := by omega
  have hint := fun S T => halfPart_integrable (K := K) (U := U) hr hdt hom hL S T
  unfold holsteinZ holstein
  simp only [mul_one, integrand_halves hK hL]
  rw [integral_finsetSum _ fun S _ => integrable_finsetSum _ fun T _ => hint S T]
  simp only [integral_finsetSum _ fun T _ => hint _ T]
  have hnn : ∀ S T, 0 ≤ ∫ x : Paths L N, halfPart sys ph K U k S T x * halfPart sys ph K U k S T (fun j => x (back hL j))
      ∂pathBase sys ph rest L := fun S T => reflect_nonneg hL (halfPart_congr hL S T)
  refine Finset.sum_pos' (fun S _ => Finset.sum_nonneg fun T _ => hnn S T) ⟨∅, Finset.mem_univ _, ?_⟩
  refine Finset.sum_pos' (fun T _ => hnn ∅ T) ⟨∅, Finset.mem_univ _, ?_⟩
  have hp : ∀ x : Paths L N, 0 < halfPart sys ph K U k ∅ ∅ x * halfPart sys ph K U k ∅ ∅ fun j => x (back hL j) :=
    fun x => mul_pos (halfPart_vacuum x) (halfPart_vacuum _)
  rw [integral_pos_iff_support_of_nonneg (fun x => (hp x).le) (hint ∅ ∅)]
  rw [show Function.support (fun x : Paths L N => halfPart sys ph K U k ∅ ∅ x
    * halfPart sys ph K U k ∅ ∅ fun j => x (back hL j)) = Set.univ from Set.eq_univ_of_forall fun x => (hp x).ne']
  exact Measure.measure_univ_pos.2 (pathBase_ne_zero h0)

/-! ## Odd numbers of slices

The link opposite to slice 0 is cut in the middle: the propagator is the square of a symmetric matrix, and the Gaussian
function of the distance between the coordinates is an integral over an intermediate point.
-/

section Odd

/-- the factors between slice 0 and the middle of the link after slice `k` -/
def upto {p : Type} [Fintype p] [DecidableEq p] (B A : Matrix p p ℝ) (d : ℕ → p → ℝ) (k : ℕ) : Matrix p p ℝ :=
  B * oprod (fun j => diagonal (d (1 + j)) * A) k

theorem trace_halves_odd {p : Type} [Fintype p] [DecidableEq p] {A B : Matrix p p ℝ} (hB : B.IsSymm) (hAB : A = B * B)
    (d e : ℕ → p → ℝ) {k : ℕ} (hL : L = 2 * k + 1) (he : ∀ j, 1 ≤ j → j ≤ k → e j = d (L - j)) :
    (oprod (fun j => diagonal (d j) * A) L).trace = ∑ S, ∑ T, d 0 T * (upto B A d k S T * upto B A e k S T) := by
  have hA : A.IsSymm := by
    unfold Matrix.IsSymm
    rw [hAB, transpose_mul, hB]
  have h1 : A * oprod (fun j => diagonal (d (k + 1 + j)) * A) k = (upto B A e k)ᵀ * B := by
    have h := oprod_transpose hA (fun j => e (1 + j)) k
    have h' : A * oprod (fun j => diagonal (d (k + 1 + j)) * A) k
        = A * oprod (fun j => diagonal (e (1 + (k - 1 - j))) * A) k := by
      congr 1
      refine oprod_congr fun l hl => ?_
      rw [he _ (by omega) (by omega), show L - (1 + (k - 1 - l)) = k + 1 + l by omega]
    rw [h', ← h]
    conv_lhs => rw [show A * oprod (fun j => diagonal (e (1 + j)) * A) k = B * upto B A e k by
      unfold upto
      rw [← mul_assoc, ← hAB]]
    rw [transpose_mul, hB]
  have h2 : oprod (fun j => diagonal (d j) * A) L
      = oprod (fun j => diagonal (d (k + 1 + j)) * A) k * (oprod (fun j => diagonal (d (1 + j)) * A) k * diagonal (d 0)) * A := by
    rw [hL, show 2 * k + 1 = k + 1 + k by omega, oprod_add, oprod_front]
    simp only [mul_assoc]
  rw [h2, trace_mul_comm, ← mul_assoc, h1, mul_assoc, ← mul_assoc B]
  rw [show B * oprod (fun j => diagonal (d (1 + j)) * A) k = upto B A d k from rfl, trace]
  simp only [diag_apply, mul_apply (M := (upto B A e k)ᵀ), transpose_apply, mul_diagonal]
  rw [Finset.sum_comm]
  exact Finset.sum_congr rfl fun S _ => Finset.sum_congr rfl fun T _ => by ring

/-- Gaussian function of the distance -/
noncomputable def bell (a : ℝ) (y z : Fin N → ℝ) : ℝ := Real.exp (-a * ∑ i, (z i - y i) ^ 2)

theorem bell_integrable {a : ℝ} (ha : 0 < a) (y : Fin N → ℝ) : Integrable (bell a y) := by
  have h : Integrable fun z : Fin N → ℝ => ∏ i, Real.exp (-a * z i ^ 2) :=
    Integrable.fintype_prod fun _ => integrable_exp_neg_mul_sq ha
  have h' := h.comp_sub_right y
  refine h'.congr (Filter.Eventually.of_forall fun z => ?_)
  show ∏ i, Real.exp (-a * (z i - y i) ^ 2) = _
  unfold bell
  rw [← Real.exp_sum, Finset.mul_sum]

/-- the integral of a Gaussian function does not depend on its centre -/
theorem bell_shift (a : ℝ) (y : Fin N → ℝ) : ∫ z, bell a y z = ∫ z, bell a (0 : Fin N → ℝ) z := by
  rw [← integral_sub_right_eq_self (fun z => bell a (0 : Fin N → ℝ) z) y]
  refine integral_congr_ae (Filter.Eventually.of_forall fun z => ?_)
  simp [bell]

theorem bell_pos {a : ℝ} (ha : 0 < a) : 0 < ∫ z, bell a (0 : Fin N → ℝ) z := by
  have hp : ∀ z, 0 < bell a (0 : Fin N → ℝ) z := fun z => Real.exp_pos _
  rw [integral_pos_iff_support_of_nonneg (fun z => (hp z).le) (bell_integrable ha 0)]
  rw [show Function.support (bell a (0 : Fin N → ℝ)) = Set.univ from Set.eq_univ_of_forall fun x => (hp x).ne']
  exact Measure.measure_univ_pos.2 (NeZero.ne _)

theorem bell_mul (a : ℝ) (y y' z : Fin N → ℝ) :
    bell a y z * bell a y' z = Real.exp (-a / 2 * ∑ i, (y' i - y i) ^ 2) * bell (2 * a) (fun i => (y i + y' i) / 2) z := by
  unfold bell
  rw [← Real.exp_add, ← Real.exp_add, Finset.mul_sum, Finset.mul_sum, Finset.mul_sum, Finset.mul_sum, ← Finset.sum_add_distrib,
    ← Finset.sum_add_distrib]
  congr 1
  exact Finset.sum_congr rfl fun i _ => by ring

/-- potential energy which the slice contributes to one of its links -/
noncomputable def halfPot (sys : Sys σ N M) (ph : Phonon) (y : Fin N → ℝ) : ℝ := ∑ i, ph.omega (sys.orb i) ^ 2 * y i ^ 2 / 2 / 2

theorem link_eq (y z : Fin N → ℝ) (hdt : ph.dt ≠ 0) : Real.exp (-ph.dt * link sys ph y z)
    = Real.exp (-ph.dt * halfPot sys ph y) * Real.exp (-ph.dt * halfPot sys ph z)
      * Real.exp (-(1 / ph.dt) / 2 * ∑ i, (z i - y i) ^ 2) := by
  unfold link halfPot
  rw [← Real.exp_add, ← Real.exp_add, Finset.mul_sum, Finset.mul_sum, Finset.mul_sum, Finset.mul_sum, ← Finset.sum_add_distrib,
    ← Finset.sum_add_distrib]
  congr 1
  refine Finset.sum_congr rfl fun i _ => ?_
  field_simp
  ring

theorem extendX_backOdd {k : ℕ} (hL : L = 2 * k + 1) (x : Paths L N) (l : ℕ) (h0 : l < L) :
    extendX (fun j => x (backOdd hL j)) l = extendX x ((L - l) % L) := by
  funext i
  unfold extendX
  rw [dif_pos h0, dif_pos (Nat.mod_lt _ (by omega))]
  rfl

theorem energy_halves_odd (sys : Sys σ N M) (ph : Phonon) {k : ℕ} (hL : L = 2 * k + 1) (x : Paths L N) :
    sys.energy ph L (extendX x) = halfEnergy sys ph k (extendX x) + halfEnergy sys ph k (extendX fun j => x (backOdd hL j))
      + link sys ph (extendX x k) (extendX (fun j => x (backOdd hL j)) k) := by
  rw [energy_links sys ph (by omega), show Finset.range L = Finset.range (k + 1 + k) by rw [hL]; congr 1; omega,
    Finset.sum_range_add, Finset.sum_range_succ, extendX_backOdd hL x k (by omega), show L - k = k + 1 by omega, add_assoc,
    add_comm (link sys ph _ _), ← add_assoc]
  unfold halfEnergy
  congr 2
  · refine Finset.sum_congr rfl fun l hl => ?_
    rw [Nat.mod_eq_of_lt (by have := Finset.mem_range.1 hl; omega)]
  · rw [← Finset.sum_range_reflect]
    refine Finset.sum_congr rfl fun l hl => ?_
    have hl' := Finset.mem_range.1 hl
    rw [extendX_backOdd hL x l (by omega), extendX_backOdd hL x (l + 1) (by omega), link_symm]
    rw [Nat.mod_eq_of_lt (show L - (l + 1) < L by omega)]
    rw [show k + 1 + (k - 1 - l) = L - (l + 1) by omega, show L - (l + 1) + 1 = L - l by omega]

/-- the part of the integrand which depends on the slices 0 to `k`, without the electrons in the middle -/
noncomputable def oddPart (sys : Sys σ N M) (ph : Phonon) (K : Mat N) (U : ℕ → ℝ) (k : ℕ) (S T : Finset (Mode N))
    (x : Paths L N) : ℝ :=
  Real.exp (onsite sys ph U (extendX x 0) T / 2)
    * upto (NormedSpace.exp (-(ph.dt / 2) • hopOp K)) (NormedSpace.exp (-ph.dt • hopOp K))
      (fun j S => Real.exp (onsite sys ph U (extendX x j) S)) k S T
    * (Real.exp (-ph.dt * halfEnergy sys ph k (extendX x)) * Real.exp (-ph.dt * halfPot sys ph (extendX x k)))

theorem oddPart_congr {k : ℕ} (hL : L = 2 * k + 1) (S T : Finset (Mode N)) (x y : Paths L N)
    (h : ∀ j : Fin L, j.val ≤ k → x j = y j) :
    oddPart sys ph K U k S T x = oddPart sys ph K U k S T y ∧ extendX x k = extendX y k := by
  have hx : ∀ l ≤ k, extendX x l = extendX y l := by
    intro l hl
    funext i
    unfold extendX
    rw [dif_pos (by omega), dif_pos (by omega), h ⟨l, by omega⟩ hl]
  have hb : upto (NormedSpace.exp (-(ph.dt / 2) • hopOp K)) (NormedSpace.exp (-ph.dt • hopOp K))
      (fun j S => Real.exp (onsite sys ph U (extendX x j) S)) k
      = upto (NormedSpace.exp (-(ph.dt / 2) • hopOp K)) (NormedSpace.exp (-ph.dt • hopOp K))
      (fun j S => Real.exp (onsite sys ph U (extendX y j) S)) k := by
    unfold upto
    congr 1
    refine oprod_congr fun l hl => ?_
    beta_reduce
    rw [hx _ (by omega)]
  have he : halfEnergy sys ph k (extendX x) = halfEnergy sys ph k (extendX y) := by
    unfold halfEnergy
    refine Finset.sum_congr rfl fun l hl => ?_
    have := Finset.mem_range.1 hl
    rw [hx _ (by omega), hx _ (by omega)]
  refine ⟨?_, hx _ le_rfl⟩
  unfold oddPart
  rw [hb, he, hx _ le_rfl, hx 0 (by omega)]

/-- a term of the integrand -/
noncomputable def oddTerm (sys : Sys σ N M) (ph : Phonon) (K : Mat N) (U : ℕ → ℝ) {k : ℕ} (hL : L = 2 * k + 1)
    (S T : Finset (Mode N)) (x : Paths L N) : ℝ :=
  oddPart sys ph K U k S T x * oddPart sys ph K U k S T (fun j => x (backOdd hL j))
    * Real.exp (-(1 / ph.dt) / 2 * ∑ i, (extendX (fun j => x (backOdd hL j)) k i - extendX x k i) ^ 2)

theorem hop_square (dt : ℝ) : (NormedSpace.exp (-dt • hopOp K) : Op (Mode N))
    = NormedSpace.exp (-(dt / 2) • hopOp K) * NormedSpace.exp (-(dt / 2) • hopOp K) := by
  rw [← Matrix.exp_add_of_commute _ _ (Commute.refl _), ← add_smul]
  congr 2
  ring

theorem integrand_halves_odd (hK : K.IsSymm) (hdt : ph.dt ≠ 0) {k : ℕ} (hL : L = 2 * k + 1) (x : Paths L N) :
    electronTrace sys ph K U L 0 1 1 x * Real.exp (-ph.dt * sys.energy ph L (extendX x))
      = ∑ S, ∑ T, oddTerm sys ph K U hL S T x := by
  have h := trace_halves_odd (hop_symm hK (ph.dt / 2)) (hop_square (K := K) ph.dt)
    (fun j S => Real.exp (onsite sys ph U (extendX x j) S))
    (fun j S => Real.exp (onsite sys ph U (extendX (fun j => x (backOdd hL j)) j) S)) hL (fun j h1 h2 => by
      funext S
      rw [extendX_backOdd hL x j (by omega), Nat.mod_eq_of_lt (by omega)])
  have e0 : extendX (fun j => x (backOdd hL j)) 0 = extendX x 0 := by
    rw [extendX_backOdd hL x 0 (by omega), Nat.sub_zero, Nat.mod_self]
  unfold electronTrace
  simp only [Nat.zero_add, Nat.sub_zero, stepAt_eq]
  rw [show oprod (fun j => diagonal (fun S => Real.exp (onsite sys ph U (extendX x j) S))
    * NormedSpace.exp (-ph.dt • hopOp K)) 0 = 1 from rfl, mul_one, mul_one, mul_one, h, Finset.sum_mul]
  refine Finset.sum_congr rfl fun S _ => ?_
  rw [Finset.sum_mul]
  refine Finset.sum_congr rfl fun T _ => ?_
  unfold oddTerm oddPart
  rw [e0, energy_halves_odd sys ph hL x, mul_add, mul_add, Real.exp_add, Real.exp_add, link_eq _ _ hdt]
  have h2 : ∀ a : ℝ, Real.exp a = Real.exp (a / 2) * Real.exp (a / 2) := fun a => by rw [← Real.exp_add, add_halves]
  rw [h2 (onsite sys ph U (extendX x 0) T)]
  ring

theorem upto_tame (B : Op (Mode N)) (f : ℕ → ℕ) (k : ℕ) (S T : Finset (Mode N)) :
    Tame fun x : Paths L N => upto B (NormedSpace.exp (-ph.dt • hopOp K))
      (fun j S => Real.exp (onsite sys ph U (extendX x (f j)) S)) k S T := by
  have h : TameM fun x : Paths L N => upto B (NormedSpace.exp (-ph.dt • hopOp K))
      (fun j S => Real.exp (onsite sys ph U (extendX x (f j)) S)) k := by
    unfold upto
    refine TameM.mul (TameM.const _) (TameM.oprod (A := fun j x => diagonal (fun S =>
      Real.exp (onsite sys ph U (extendX x (f (1 + j))) S)) * NormedSpace.exp (-ph.dt • hopOp K)) (fun j => ?_) k)
    refine TameM.mul (TameM.diagonal fun S => ?_) (TameM.const _)
    simpa using onsite_tame (sys := sys) (ph := ph) (U := U) (L := L) 1 (f (1 + j)) S
  exact h S T

theorem oddTerm_integrable (hr : Light rest) (hdt : 0 < ph.dt) (hom : ∀ i, ph.g (sys.orb i) ≠ 0 → ph.omega (sys.orb i) ≠ 0)
    {k : ℕ} (hL : L = 2 * k + 1) (S T : Finset (Mode N)) :
    Integrable (oddTerm sys ph K U hL S T) (pathBase sys ph rest L) := by
  have h := Tame.integrable (sys := sys) hr hdt hom
    (((onsite_tame (sys := sys) (ph := ph) (U := U) (L := L) 1 0 T).mul
      (upto_tame (sys := sys) (ph := ph) (K := K) (U := U) (NormedSpace.exp (-(ph.dt / 2) • hopOp K)) id k S T)).mul
      (upto_tame (sys := sys) (ph := ph) (K := K) (U := U) (NormedSpace.exp (-(ph.dt / 2) • hopOp K)) (fun j => (L - j) % L) k S T))
  refine h.congr (Filter.Eventually.of_forall fun x => ?_)
  have e0 : extendX (fun j => x (backOdd hL j)) 0 = extendX x 0 := by
    rw [extendX_backOdd hL x 0 (by omega), Nat.sub_zero, Nat.mod_self]
  have e2 : upto (NormedSpace.exp (-(ph.dt / 2) • hopOp K)) (NormedSpace.exp (-ph.dt • hopOp K))
      (fun j S => Real.exp (onsite sys ph U (extendX (fun j => x (backOdd hL j)) j) S)) k
      = upto (NormedSpace.exp (-(ph.dt / 2) • hopOp K)) (NormedSpace.exp (-ph.dt • hopOp K))
      (fun j S => Real.exp (onsite sys ph U (extendX x ((L - j) % L)) S)) k := by
    unfold upto
    congr 1
    refine oprod_congr fun l hl => ?_
    beta_reduce
    rw [extendX_backOdd hL x (1 + l) (by omega)]
  show _ = oddTerm sys ph K U hL S T x
  unfold oddTerm oddPart
  beta_reduce
  rw [e0, e2, energy_halves_odd sys ph hL x, mul_add, mul_add, Real.exp_add, Real.exp_add, link_eq _ _ hdt.ne']
  have h2 : ∀ a : ℝ, Real.exp a = Real.exp (a / 2) * Real.exp (a / 2) := fun a => by rw [← Real.exp_add, add_halves]
  rw [one_mul, h2 (onsite sys ph U (extendX x 0) T)]
  simp only [id]
  ring

/-- the terms have integrals which are not negative -/
theorem oddTerm_nonneg (hr : Light rest) (hdt : 0 < ph.dt) (hom : ∀ i, ph.g (sys.orb i) ≠ 0 → ph.omega (sys.orb i) ≠ 0)
    {k : ℕ} (hL : L = 2 * k + 1) (S T : Finset (Mode N)) :
    0 ≤ ∫ x, oddTerm sys ph K U hL S T x ∂pathBase sys ph rest L := by
  have ha : 0 < 2 * (1 / ph.dt) := by positivity
  have hi := oddTerm_integrable (K := K) (U := U) hr hdt hom hL S T
  set mid : Paths L N → Fin N → ℝ := fun x i => (extendX x k i + extendX (fun j => x (backOdd hL j)) k i) / 2 with hmid
  have hmc : Continuous mid := by
    refine continuous_pi fun i => Continuous.div_const (Continuous.add (extendX_continuous k i) ?_) 2
    simp only [extendX_backOdd hL _ k (by omega)]
    exact extendX_continuous _ i
  have hbc : Continuous fun q : Paths L N × (Fin N → ℝ) => bell (2 * (1 / ph.dt)) (mid q.1) q.2 := by
    unfold bell
    refine Real.continuous_exp.comp (continuous_const.mul (continuous_finsetSum _ fun i _ => ?_))
    exact (((continuous_apply i).comp continuous_snd).sub ((continuous_apply i).comp (hmc.comp continuous_fst))).pow 2
  have hint : Integrable (fun q : Paths L N × (Fin N → ℝ) => oddTerm sys ph K U hL S T q.1 * bell (2 * (1 / ph.dt)) (mid q.1) q.2)
      ((pathBase sys ph rest L).prod volume) := by
    refine (integrable_prod_iff (hi.aestronglyMeasurable.comp_fst.mul hbc.aestronglyMeasurable)).2 ⟨Filter.Eventually.of_forall fun x => (bell_integrable ha (mid x)).const_mul (oddTerm sys ph K U hL S T x), ?_⟩
    refine (hi.norm.mul_const (∫ z, bell (2 * (1 / ph.dt)) (0 : Fin N → ℝ) z)).congr (Filter.Eventually.of_forall fun x => ?_)
    show _ = ∫ z, ‖oddTerm sys ph K U hL S T x * bell (2 * (1 / ph.dt)) (mid x) z‖
    simp only [norm_mul]
    rw [integral_const_mul]
    congr 1
    rw [← bell_shift _ (mid x)]
    exact integral_congr_ae (Filter.Eventually.of_forall fun z => (Real.norm_of_nonneg (Real.exp_pos _).le).symm)
  have hswap := integral_integral_swap (f := fun x z => oddTerm sys ph K U hL S T x * bell (2 * (1 / ph.dt)) (mid x) z) hint
  simp only [integral_const_mul, bell_shift] at hswap
  rw [integral_mul_const] at hswap
  have hnn : 0 ≤ ∫ z : Fin N → ℝ, ∫ x, oddTerm sys ph K U hL S T x * bell (2 * (1 / ph.dt)) (mid x) z ∂pathBase sys ph rest L := by
    refine integral_nonneg fun z => ?_
    have e : ∀ x : Paths L N, oddTerm sys ph K U hL S T x * bell (2 * (1 / ph.dt)) (mid x) z
        = (oddPart sys ph K U k S T x * bell (1 / ph.dt) (extendX x k) z)
          * (oddPart sys ph K U k S T (fun j => x (backOdd hL j)) * bell (1 / ph.dt) (extendX (fun j => x (backOdd hL j)) k) z) := by
      intro x
      unfold oddTerm
      rw [mul_mul_mul_comm, bell_mul, mul_assoc]
    simp only [e]
    exact reflect_nonneg_odd (H := fun x : Paths L N => oddPart sys ph K U k S T x * bell (1 / ph.dt) (extendX x k) z) hL
      fun x y h => by
        obtain ⟨h1, h2⟩ := oddPart_congr (sys := sys) (ph := ph) (K := K) (U := U) hL S T x y h
        show oddPart sys ph K U k S T x * bell (1 / ph.dt) (extendX x k) z = _
        rw [h1, h2]
  rw [← hswap] at hnn
  exact nonneg_of_mul_nonneg_left hnn (bell_pos ha)

theorem oddPart_vacuum {k : ℕ} (x : Paths L N) : 0 < oddPart sys ph K U k ∅ ∅ x := by
  have hA : ∀ t : ℝ, Fixes (NormedSpace.exp (-t • hopOp K)) (∅ : Finset (Mode N)) := by
    intro t
    rw [exp_hopOp]
    exact gamma_keeps _
  have h : Fixes (upto (NormedSpace.exp (-(ph.dt / 2) • hopOp K)) (NormedSpace.exp (-ph.dt • hopOp K))
      (fun j S => Real.exp (onsite sys ph U (extendX x j) S)) k) (∅ : Finset (Mode N)) :=
    (hA _).mul (Fixes.oprod (t := fun j => diagonal (fun S => Real.exp (onsite sys ph U (extendX x (1 + j)) S))
      * NormedSpace.exp (-ph.dt • hopOp K)) (fun j => Fixes.mul (Fixes.diagonal (Real.exp_pos _)) (hA _)) k)
  unfold oddPart
  exact mul_pos (mul_pos (Real.exp_pos _) h.1) (mul_pos (Real.exp_pos _) (Real.exp_pos _))

/-- the partition function of the Hubbard-Holstein model is positive for odd numbers of slices -/
theorem partition_positive_odd (hr : Light rest) (h0 : rest ≠ 0) (hdt : 0 < ph.dt)
    (hom : ∀ i, ph.g (sys.orb i) ≠ 0 → ph.omega (sys.orb i) ≠ 0) (hK : K.IsSymm) {k : ℕ} (hL : L = 2 * k + 1) :
    0 < holsteinZ sys ph rest K U L := by
  have hint := fun S T => oddTerm_integrable (K := K) (U := U) hr hdt hom hL S T
  have hnn := fun S T => oddTerm_nonneg (K := K) (U := U) hr hdt hom hL S T
  unfold holsteinZ holstein
  simp only [mul_one, integrand_halves_odd hK hdt.ne' hL]
  rw [integral_finsetSum _ fun S _ => integrable_finsetSum _ fun T _ => hint S T]
  simp only [integral_finsetSum _ fun T _ => hint _ T]
  refine Finset.sum_pos' (fun S _ => Finset.sum_nonneg fun T _ => hnn S T) ⟨∅, Finset.mem_univ _, ?_⟩
  refine Finset.sum_pos' (fun T _ => hnn ∅ T) ⟨∅, Finset.mem_univ _, ?_⟩
  have hp : ∀ x : Paths L N, 0 < oddTerm sys ph K U hL ∅ ∅ x :=
    fun x => mul_pos (mul_pos (oddPart_vacuum x) (oddPart_vacuum _)) (Real.exp_pos _)
  rw [integral_pos_iff_support_of_nonneg (fun x => (hp x).le) (hint ∅ ∅)]
  rw [show Function.support (oddTerm sys ph K U hL ∅ ∅) = Set.univ from Set.eq_univ_of_forall fun x => (hp x).ne']
  exact Measure.measure_univ_pos.2 (pathBase_ne_zero h0)

end Odd

/-- the partition function of the Hubbard-Holstein model is positive -/
theorem partition_positive (hr : Light rest) (h0 : rest ≠ 0) (hdt : 0 < ph.dt)
    (hom : ∀ i, ph.g (sys.orb i) ≠ 0 → ph.omega (sys.orb i) ≠ 0) (hK : K.IsSymm) (hpos : 0 < L) :
    0 < holsteinZ sys ph rest K U L := by
  rcases Nat.even_or_odd L with hL | ⟨k, hL⟩
  · exact partition_positive_even hr h0 hdt hom hK hL hpos
  · exact partition_positive_odd hr h0 hdt hom hK hL

end Verif.MonteCarlo
