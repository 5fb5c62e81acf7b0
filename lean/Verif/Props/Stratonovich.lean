import Verif.Model.Stratonovich
import Mathlib.Tactic.Positivity
import Mathlib.Tactic.Linarith
import Mathlib.Tactic.FieldSimp
import Mathlib.Tactic.FinCases
import Mathlib.Algebra.BigOperators.Fin

/-! # Properties C19, C20: the Hubbard-Stratonovich decoupling -/

set_option autoImplicit false

namespace Verif.Stratonovich

/-! ## Lemmas -/

theorem hsY_nonneg_iff (U dt : ℝ) : 0 ≤ hsY U dt ↔ 0 ≤ dt * U := by
  have hp : 0 < Real.exp (hsX U dt) + 1 := by positivity
  unfold hsY
  rw [mul_nonneg_iff_of_pos_right hp, sub_nonneg, Real.one_le_exp_iff, hsX]
  constructor <;> intro h <;> linarith

theorem expPos_pos {U dt : ℝ} : 0 < expPos U dt := by unfold expPos; positivity

theorem expNeg_eq (U dt : ℝ) : expNeg U dt = (expPos U dt)⁻¹ := by
  unfold expNeg; norm_num

/-- `exp(λ) exp(-λ) = 1` and `exp(λ) + exp(-λ) = 2 exp(dt U / 2)` -/
theorem expPos_add_expNeg {U dt : ℝ} (h : 0 ≤ dt * U) :
    expPos U dt + expNeg U dt = 2 * Real.exp (dt * U / 2) := by
  have hy := (hsY_nonneg_iff U dt).2 h
  have hs := Real.sq_sqrt hy
  rw [expNeg_eq]
  have hx : hsX U dt = dt * U / 2 := by unfold hsX; ring
  have hne : expPos U dt ≠ 0 := expPos_pos.ne'
  have hinv : (expPos U dt)⁻¹ = Real.exp (hsX U dt) - Real.sqrt (hsY U dt) := by
    apply inv_eq_of_mul_eq_one_right
    have : hsY U dt = Real.exp (hsX U dt) ^ 2 - 1 := by unfold hsY; ring
    unfold expPos
    nlinarith
  rw [hinv, ← hx]; unfold expPos; ring

theorem delta0_eq {U dt : ℝ} (h : 0 ≤ dt * U) : delta0 U dt + 1 = expPos U dt ^ 2 := by
  have hs := Real.sq_sqrt ((hsY_nonneg_iff U dt).2 h)
  have hy : hsY U dt = Real.exp (hsX U dt) ^ 2 - 1 := by unfold hsY; ring
  unfold delta0 expPos
  nlinarith

theorem fill_defined {Norb : ℕ} {U : ℕ → ℝ} {dt : ℝ} (h : ∀ o < Norb, 0 ≤ dt * U o) :
    ∃ p, fill Norb U dt = some p := by
  unfold fill
  rw [if_neg]
  · exact ⟨_, rfl⟩
  · rintro ⟨o, ho, hneg⟩
    exact absurd ((hsY_nonneg_iff _ _).2 (h o ho)) (not_le.2 hneg)

/-! ## C19 -/

/-- factor of an electron with occupation number `n`: `exp(n V)` with `expV = exp(V)` -/
noncomputable def occ (expV : ℝ) (n : Fin 2) : ℝ := expV ^ (n : ℕ)

/-- C19: for `dt U ≥ 0` the parameters are defined, and for every occupation of a site, averaging
the product of the spin-up and spin-down factors over the two field values gives
`exp(-dt U (n_up - 1/2)(n_down - 1/2))` up to the constant `exp(dt U / 4)`. -/
theorem hs_decoupling (Norb : ℕ) (U : ℕ → ℝ) (dt : ℝ) (hU : ∀ o < Norb, 0 ≤ dt * U o) :
    ∃ p, fill Norb U dt = some p ∧ ∀ o < Norb, ∀ nu nd : Fin 2,
      (1 / 2) * ∑ s : Fin 2, occ (p.expVu s o) nu * occ (p.expVd s o) nd
        = Real.exp (dt * U o / 4) *
          Real.exp (- dt * U o * ((nu : ℕ) - 1 / 2) * ((nd : ℕ) - 1 / 2)) := by
  obtain ⟨p, hp⟩ := fill_defined (Norb := Norb) (U := U) (dt := dt) hU
  refine ⟨p, hp, fun o ho nu nd => ?_⟩
  unfold fill at hp
  split at hp
  · cases hp
  · rw [Option.some.injEq] at hp
    subst hp
    have hsum := expPos_add_expNeg (hU o ho)
    have hmul : expPos (U o) dt * expNeg (U o) dt = 1 := by
      rw [expNeg_eq, mul_inv_cancel₀ expPos_pos.ne']
    have hne : expNeg (U o) dt * expPos (U o) dt = 1 := by rw [mul_comm]; exact hmul
    rw [← Real.exp_add]
    fin_cases nu <;> fin_cases nd <;> simp [Fin.sum_univ_two, occ]
    · rw [show dt * U o / 4 + -(dt * U o * 2⁻¹ * 2⁻¹) = 0 by ring, Real.exp_zero]
    · rw [hsum, show dt * U o / 4 + dt * U o * 2⁻¹ * (1 - 2⁻¹) = dt * U o / 2 by ring]; ring
    · rw [add_comm, hsum, show dt * U o / 4 + dt * U o * (1 - 2⁻¹) * 2⁻¹ = dt * U o / 2 by ring]; ring
    · rw [hmul, hne, show dt * U o / 4 + -(dt * U o * (1 - 2⁻¹) * (1 - 2⁻¹)) = 0 by ring]; norm_num

/-- C12/C19 boundary: a negative `dt U` in one of the orbitals, which the validation accepts, leads
to the square root of a negative number. -/
theorem fill_negative (Norb : ℕ) (U : ℕ → ℝ) (dt : ℝ) :
    fill Norb U dt = none ↔ ∃ o < Norb, dt * U o < 0 := by
  unfold fill
  constructor
  · intro h
    split at h
    · rename_i h'
      obtain ⟨o, ho, hneg⟩ := h'
      exact ⟨o, ho, by rw [← not_le, ← hsY_nonneg_iff]; exact not_le.2 hneg⟩
    · cases h
  · rintro ⟨o, ho, hneg⟩
    rw [if_pos ⟨o, ho, by rw [← not_le, hsY_nonneg_iff]; exact not_le.2 hneg⟩]

/-! ## C20 -/

/-- what the tables have to satisfy for one orbital -/
structure Consistent (p : HSParams) (o : ℕ) : Prop where
  pos : ∀ s, 0 < p.expVu s o ∧ 0 < p.expVd s o
  /-- spin-down is spin-up with the field reversed -/
  reversed : ∀ s, p.expVd s o = p.expVu (1 - s) o
  /-- reversing the field inverts the exponential -/
  reciprocal : ∀ s, p.expVu s o * p.expVu (1 - s) o = 1
  /-- factor of a flip, spin up -/
  flipUp : ∀ s, p.expVu (1 - s) o = (1 + p.delta s o) * p.expVu s o
  /-- factor of a flip, spin down -/
  flipDown : ∀ s, p.expVd (1 - s) o = (1 + p.delta (1 - s) o) * p.expVd s o

/-- C20 -/
theorem fill_consistent (Norb : ℕ) (U : ℕ → ℝ) (dt : ℝ) (p : HSParams) (hp : fill Norb U dt = some p)
    (o : ℕ) (ho : o < Norb) : Consistent p o := by
  unfold fill at hp
  split at hp
  · cases hp
  · rename_i h
    have hnn : 0 ≤ dt * U o := by
      rw [← hsY_nonneg_iff]
      by_contra h'
      exact h ⟨o, ho, not_le.1 h'⟩
    rw [Option.some.injEq] at hp
    subst hp
    have hpos : 0 < expPos (U o) dt := expPos_pos
    have hne := hpos.ne'
    have hd : delta0 (U o) dt = expPos (U o) dt ^ 2 - 1 := by rw [← delta0_eq hnn]; ring
    have hmul : expPos (U o) dt * expNeg (U o) dt = 1 := by
      rw [expNeg_eq, mul_inv_cancel₀ hne]
    have hd1 : (1.0 : ℝ) / (delta0 (U o) dt + 1) = expNeg (U o) dt ^ 2 := by
      rw [delta0_eq hnn, expNeg_eq]; norm_num
    constructor
    · intro s
      fin_cases s <;> simp [expNeg_eq, hpos]
    · intro s; fin_cases s <;> simp
    · intro s; fin_cases s
      · simp; rw [mul_comm]; exact hmul
      · simp; exact hmul
    · intro s; fin_cases s
      · simp only [Fin.zero_eta, sub_zero, Fin.isValue, one_ne_zero, if_false, if_true]
        rw [hd]
        linear_combination (-expPos (U o) dt) * hmul
      · simp only [Fin.mk_one, sub_self, Fin.isValue, one_ne_zero, if_false, if_true]
        rw [hd1]
        linear_combination (- expNeg (U o) dt) * hmul
    · intro s; fin_cases s
      · simp only [Fin.zero_eta, sub_zero, Fin.isValue, one_ne_zero, if_false, if_true]
        rw [hd1]
        linear_combination (- expNeg (U o) dt) * hmul
      · simp only [Fin.mk_one, sub_self, Fin.isValue, one_ne_zero, if_false, if_true]
        rw [hd]
        linear_combination (-expPos (U o) dt) * hmul

/-- non-vacuity: two orbitals with U = 4 and U = 0 -/
example : ∃ p, fill 2 (fun o => if o = 0 then 4 else 0) (1 / 8) = some p :=
  fill_defined fun o _ => by split <;> norm_num

/-- the flip factors are not trivial for U > 0 -/
theorem delta0_pos {U dt : ℝ} (h : 0 < dt * U) : 0 < delta0 U dt := by
  have hp : 0 < hsX U dt := by unfold hsX; linarith
  have h1 : 1 < Real.exp (hsX U dt) := Real.one_lt_exp_iff.2 hp
  have hy : 0 < hsY U dt := by unfold hsY; apply mul_pos <;> linarith
  unfold delta0
  positivity

/-! ## C33 (tables): without interaction the field has no influence -/

/-- if `U = 0` all exponentials are 1 and the flip factors 0 -/
theorem fill_zero (Norb : ℕ) (U : ℕ → ℝ) (dt : ℝ) (p : HSParams) (hp : fill Norb U dt = some p)
    (o : ℕ) (hU : U o = 0) (s : Fin 2) : p.expVu s o = 1 ∧ p.expVd s o = 1 ∧ p.delta s o = 0 := by
  unfold fill at hp
  split at hp
  · cases hp
  · rw [Option.some.injEq] at hp
    subst hp
    have h1 : hsX (U o) dt = 0 := by unfold hsX; rw [hU, mul_zero]
    have h2 : hsY (U o) dt = 0 := by unfold hsY; rw [h1]; simp
    have h3 : expPos (U o) dt = 1 := by unfold expPos; rw [h1, h2]; simp
    have h4 : expNeg (U o) dt = 1 := by rw [expNeg_eq, h3, inv_one]
    have h5 : delta0 (U o) dt = 0 := by unfold delta0; rw [h2]; simp
    fin_cases s <;> (simp [h3, h4, h5]; try norm_num)

end Verif.Stratonovich
