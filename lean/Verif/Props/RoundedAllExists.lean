import Verif.Props.RoundedExists
import Verif.Props.RoundedAll

/-! # Calls of BLAS and LAPACK which meet the requirements of property C117, and a concrete run -/

set_option autoImplicit false

namespace Verif.Rounded

open MeasureTheory Filter Topology Matrix Verif.Lapack Verif.TimeFlow Verif.Greens Verif.Stratonovich Verif.MonteCarlo Verif.Ultra
open Verif.Fock Verif.Measurement Verif.Main Verif.Progress Verif.Random Verif.Params Verif.Rough

variable {σ : Type} {N : ℕ} {M : Type}

/-- calls which are exact, except that matrix products have an error `e` -/
theorem block_lapack (e : ℝ) : ∃ bl : BlockArith, (∀ (m l c : ℕ) (X : Matrix (Fin m) (Fin l) ℝ) (Y : Matrix (Fin l) (Fin c) ℝ)
      (Z : Matrix (Fin m) (Fin c) ℝ), bl.gemmAcc X Y Z = X * Y + Z + Matrix.of fun _ _ => e) ∧
    ∀ (S k : ℕ) (u : ℝ), |e| ≤ u → bl.Within S k u := by
  choose F tau h hb using fun (m n : ℕ) (A : Matrix (Fin m) (Fin n) ℝ) => qr_exists_bounded A
  have near : ∀ (m n : ℕ) (u b : ℝ) (k : ℕ) (A : Matrix (Fin m) (Fin n) ℝ), 0 ≤ u → 1 ≤ b → Near (u * b ^ k) A A :=
    fun m n u b k A hu hb i j => by
      rw [sub_self, abs_zero]
      positivity
  refine ⟨{ geqrf := fun A => (F _ _ A, tau _ _ A)
            ormqrL := fun F tau C => (qMat F tau)ᵀ * C
            ormqrR := fun F tau C => C * (qMat F tau)ᵀ
            trtri := fun M => (upper M)⁻¹
            trmmL := fun α T B => α • (upper T * B)
            trmmR := fun B T => B * upper T
            gemmAcc := fun X Y Z => X * Y + Z + Matrix.of fun _ _ => e }, fun _ _ _ _ _ _ => rfl, fun S k u hu => ?_⟩
  have hu0 : 0 ≤ u := (abs_nonneg e).trans hu
  refine ⟨fun {m c} b A _ _ h1 _ _ => ⟨fun i => ⟨?_, fun r hr => (hb _ _ A i r hr).trans (by norm_num)⟩, ?_⟩,
    fun b F tau C _ _ _ h1 _ _ _ _ => near _ _ u b k _ hu0 h1, fun b F tau C _ _ _ h1 _ _ _ _ => near _ _ u b k _ hu0 h1,
    fun {m} b M _ h1 _ _ hdet => ?_, fun b α T B _ _ h1 _ _ _ _ => near _ _ u b k _ hu0 h1,
    fun b B T _ _ h1 _ _ _ => near _ _ u b k _ hu0 h1, fun {m l c} b X Y Z _ _ _ h1 _ _ _ _ i j => ?_⟩
  · rcases (h _ _ A).refl i with e | e
    · exact Or.inl e
    · right
      rw [e, sub_self, abs_zero]
      exact hu0
  · rw [← (h _ _ A).eq]
    exact near _ _ u b k A hu0 h1
  · have hup : upper ((upper M)⁻¹) = (upper M)⁻¹ := by
      ext i j
      simp only [upper, of_apply]
      split
      · rfl
      · rename_i hij
        have ht : BlockTriangular (upper M) id := fun i j hji => by
          simp only [upper, of_apply]
          exact if_neg (show ¬ i.val ≤ j.val from not_le.2 hji)
        have hdet0 : IsUnit (upper M).det := isUnit_iff_ne_zero.2 fun e => by
          rw [e, abs_zero, mul_zero] at hdet
          linarith
        have hinv : Invertible (upper M) := Matrix.invertibleOfIsUnitDet _ hdet0
        have := blockTriangular_inv_of_blockTriangular ht
        exact (this (show id j < id i from not_le.1 hij)).symm
    show Near _ (upper ((upper M)⁻¹)) _
    rw [hup]
    exact near _ _ u b k _ hu0 h1
  · simp only [Matrix.add_apply, of_apply, add_sub_cancel_left]
    exact hu.trans (le_mul_of_one_le_right hu0 (one_le_pow₀ h1))

/-- the requirements can be met by calls which are not exact -/
example (S k : ℕ) {u : ℝ} (hu : 0 < u) : ∃ bl : BlockArith, bl.Within S k u ∧ bl.gemmAcc (1 : Mat 1) (1 : Mat 1) 0 ≠ (1 : Mat 1) * 1 + 0 := by
  obtain ⟨bl, h1, h2⟩ := block_lapack u
  refine ⟨bl, h2 S k u (abs_of_pos hu).le, ?_⟩
  rw [h1]
  intro h
  have := congrFun (congrFun h 0) 0
  simp at this
  exact hu.ne' this

instance : NeZero (sites exU) := ⟨by decide⟩

/-- non-vacuity: one site with interaction and two time slices, and unequal time measurements in every sweep; the Green's function for
a time difference of one slice is computed accurately -/
example : ∃ mc : Machine, ∃ sys : Sys Seed (sites exU) MeasData, mc.Rounds ∧ sysOf mc exU = some sys ∧
    ∃ T, AccurateAll (independent (drawDist (sites exU))) (sys.withRng (idealRng (sites exU))) (mkSetup mc exU "").cfg
      (sites exU * 2) (roundMeasAll 1 1 2 (Maps.construct 1 1 0 mc.maps) mc.tau mc.green sys.meas)
      (fun m => m.uneq.arr .gtau0U 1) (fun m => m.uneq.sign) T := by
  obtain ⟨mc, hmc⟩ := machine_exists
  obtain ⟨sys, hsys, hok, -⟩ := sys_defined hmc exU_admissible exU_guards.U exU_guards.shift (by decide) ""
  have hdiag : ∀ i j, i ≠ j → bondMatrix exU i j = 0 := fun i j h => absurd (Subsingleton.elim (α := Fin 1) i j) h
  obtain ⟨ho, hD⟩ := program_describes exU_admissible exU_guards sys hsys
  obtain ⟨-, hr⟩ := atomic_conditions exU_admissible exU_guards hdiag (by decide) sys hsys
  have key := (program_rounded_all hmc exU_admissible exU_guards (by decide) "" _ (idealRng_lawful _)
    (idealRng_ideal _) sys hsys
    (fun s => weight_one_site hmc exU_admissible exU_guards rfl sys hsys _ s _ fun _ _ => one_pos) (fun i => by
      rcases hr i with h | h
      · left
        rw [← ho i]
        exact (decoupled_iff hD (by norm_num [exU, exP]) i).1 h
      · exact Or.inr h)
    (by decide) (by decide) (by decide)).2 (by decide)
  exact ⟨mc, sys, hmc, hsys, _, key.corr .gtau0U (by simp) 1 0 0 (by decide) (by decide) (by decide) 0 0⟩

/-! ## The requirement of at least two blocks -/

/-- with a single block (`prodBlen = L`), the computation leaves the arrays in any arithmetic (C12) -/
theorem compute_one_block (ar : Arith N) (bl : BlockArith) (hN : 0 < N) (tsm : TSM N) (hp : tsm.numBprod = 1) (L : ℕ)
    (tau : BlockCyclic.Buf) (old : GreensUneq.Arrays) : compute ar bl tsm L tau old = none := by
  have : ¬ BlockCyclic.Fits (N * 1 * (N * 1)) ((1 + (N * 1 : ℕ)) * ((1 : ℕ) - 2) * N) (N * 1) (2 * N) (2 * N) := by
    rintro ⟨h, -⟩
    have hn' : (0 : ℤ) < N := by exact_mod_cast hN
    push_cast at h
    nlinarith
  have hinv : ∀ H, blockCyclicInverse bl N 1 H tau = none := by
    intro H
    unfold blockCyclicInverse blockCyclicQR dgeqrf BlockCyclic.load
    simp only [Nat.sub_eq_zero_of_le (show 1 ≤ 2 by norm_num), List.range_zero, List.foldlM_nil, if_neg this]
    rfl
  unfold compute
  cases h : GreensUneq.buildH tsm with
  | none => rfl
  | some H =>
    rw [hp, Option.bind_eq_bind, Option.bind_some, hinv]
    rfl

end Verif.Rounded
