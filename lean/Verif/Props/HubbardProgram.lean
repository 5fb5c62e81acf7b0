import Verif.Props.Hubbard
import Verif.Props.Program

/-! # Properties C71, C72 for the parameters of a run -/

set_option autoImplicit false

namespace Verif.Fock

open Matrix Verif.Lapack Verif.TimeFlow Verif.Greens Verif.GreensUneq Verif.Measurement
open Verif.Stratonovich Verif.MonteCarlo Verif.Main Verif.Random Verif.Params

/-- specification: matrix elements of the kinetic energy. Between different sites minus the sum of the
amplitudes of the bonds which join them, on a site the energy of the orbital minus the chemical
potential -/
noncomputable def bondMatrix (p : SimParams ℝ) : Mat (sites p) := Matrix.of fun i j =>
  if i = j then -p.mu + p.eps ((i.val / (p.Nx.toNat * p.Ny.toNat) : ℕ))
  else - Kinetic.bondSum p.Norb.toNat p.Nx.toNat p.Ny.toNat p.pbcShift p.t i.val j.val

/-- specification: time step of the Hubbard model with the parameters of the run -/
noncomputable def hubbardStep (p : SimParams ℝ) : Op (Mode (sites p)) :=
  stepOp (bondMatrix p) (fun i => p.U ((i.val / (p.Nx.toNat * p.Ny.toNat) : ℕ))) p.dt fun _ => 0

variable {mc : Machine} {p : SimParams ℝ}

theorem bondMatrix_symm (p : SimParams ℝ) : (bondMatrix p).IsSymm := by
  ext i j
  simp only [Matrix.transpose_apply, bondMatrix, Matrix.of_apply]
  by_cases h : i = j
  · subst h; rfl
  · rw [if_neg h, if_neg (Ne.symm h), Kinetic.bondSum_comm]

theorem bondMatrix_eq (hx : 0 < p.Nx.toNat) (hy : 0 < p.Ny.toNat) (hshift : 0 ≤ p.pbcShift) {T : ℤ → ℝ}
    (hT : Kinetic.hopping p.Norb.toNat p.Nx.toNat p.Ny.toNat p.pbcShift p.t p.eps p.mu = some T) :
    Kinetic.toMatrix (sites p) T = bondMatrix p := by
  obtain ⟨T', hT', -, hoff, hdiag⟩ := Kinetic.hopping_spec p.Norb.toNat p.Nx.toNat p.Ny.toNat hx hy p.pbcShift
    hshift p.t p.eps p.mu
  obtain rfl : T' = T := Option.some.inj (hT'.symm.trans hT)
  have hc : 0 < p.Nx.toNat * p.Ny.toNat := by positivity
  ext i j
  have hi : i.val < p.Norb.toNat * (p.Nx.toNat * p.Ny.toNat) := i.2
  have hj : j.val < p.Norb.toNat * (p.Nx.toNat * p.Ny.toNat) := j.2
  simp only [Kinetic.toMatrix, bondMatrix, Matrix.of_apply]
  by_cases h : i = j
  · subst h
    rw [if_pos rfl]
    have := hdiag (i.val / (p.Nx.toNat * p.Ny.toNat)) (i.val % (p.Nx.toNat * p.Ny.toNat))
      ((Nat.div_lt_iff_lt_mul hc).2 hi) (Nat.mod_lt _ hc)
    rw [← this]
    unfold Kinetic.entry sites
    have e : ((i.val % (p.Nx.toNat * p.Ny.toNat) : ℕ) : ℤ)
        + ((i.val / (p.Nx.toNat * p.Ny.toNat) : ℕ) : ℤ) * ((p.Nx.toNat * p.Ny.toNat : ℕ) : ℤ) = (i.val : ℤ) := by
      exact_mod_cast Nat.mod_add_div' i.val (p.Nx.toNat * p.Ny.toNat)
    rw [e]
  · rw [if_neg h]
    have := hoff i.val j.val (by omega) (by exact_mod_cast hi) (by omega) (by exact_mod_cast hj)
      (fun e => h (Fin.ext (by exact_mod_cast e)))
    rw [← this]
    rfl

/-- the constant data of a run belong to the Hamiltonian given by the parameters -/
theorem program_describes (hv : Admissible p) (hg : Guards p) (sys : Sys Seed (sites p) MeasData)
    (hsys : sysOf mc p = some sys) :
    (∀ i, sys.orb i = i.val / (p.Nx.toNat * p.Ny.toNat)) ∧
    Describes sys p.Norb.toNat (bondMatrix p) (fun o => p.U o) p.dt := by
  have h1 := hv.norb
  have h2 := hv.nx
  have h3 := hv.ny
  have hx : 0 < p.Nx.toNat := by omega
  have hy : 0 < p.Ny.toNat := by omega
  obtain ⟨T, K, hT, hK, hexp, -⟩ := Kinetic.kinetic_exponentials p.Norb.toNat p.Nx.toNat p.Ny.toNat
    hx hy p.pbcShift hg.shift p.t p.eps p.mu p.dt (mc.es _)
  have hU : ∀ o < p.Norb.toNat, 0 ≤ p.dt * p.U o := fun o ho => hg.U o (by omega)
  obtain ⟨hs, hhs⟩ := Stratonovich.fill_defined (Norb := p.Norb.toNat) (U := fun o => p.U o) (dt := p.dt) hU
  unfold sysOf at hsys
  simp only [hK, hhs, Option.bind_eq_bind, Option.bind_some, Option.pure_def, Option.some.injEq] at hsys
  subst hsys
  refine ⟨fun i => rfl, hU, fun i => ?_, hhs, ?_⟩
  · show (i : ℕ) / (p.Nx.toNat * p.Ny.toNat) < p.Norb.toNat
    rw [Nat.div_lt_iff_lt_mul (by positivity)]
    exact i.2
  · show K.expK = _
    rw [hexp]
    congr 2
    exact bondMatrix_eq hx hy hg.shift hT

/-- C71: for accepted parameters within the guards, the sum over all fields of the weights with their
signs is the partition function of the Hubbard model in the Trotter approximation up to a positive
constant, and it is positive -/
theorem program_partition_function (hv : Admissible p) (hg : Guards p) (sys : Sys Seed (sites p) MeasData)
    (hsys : sysOf mc p = some sys) (L : ℕ) :
    ∃ c > 0, (hubbardStep p ^ L).trace
        = c * ∑ s : Fin L → Fin (sites p) → Fin 2, signed sys L (extend s) (fun _ _ => 1) ∧
      0 < ∑ s : Fin L → Fin (sites p) → Fin 2, signed sys L (extend s) fun _ _ => 1 := by
  obtain ⟨ho, h⟩ := program_describes hv hg sys hsys
  have h1 := partition_function h (fun _ _ => 0) L
  have h2 := average_sign_pos h (bondMatrix_symm p) (fun _ => 0) L
  simp only [mul_zero, Real.exp_zero] at h1 h2
  rw [oprod_const] at h1
  refine ⟨_, pow_pos (stepConst_pos (fun i => p.U (sys.orb i : ℕ)) p.dt) L, ?_, h2⟩
  rw [← h1]
  unfold hubbardStep
  simp only [ho]

/-- C72: for accepted parameters within the guards and non-zero weights, the average with signs over
the fields of what the equal time measurements at slice `l` estimate is the thermal expectation value
in the Hubbard model -/
theorem program_thermal_averages (hv : Admissible p) (hg : Guards p) (sys : Sys Seed (sites p) MeasData)
    (hsys : sysOf mc p = some sys) {L l : ℕ} (hl : l ≤ L)
    (hw : ∀ s : ℕ → Fin (sites p) → Fin 2, sys.weight L s (fun _ _ => 1) ≠ 0) :
    let Z := (hubbardStep p ^ L).trace
    let P := fun s : ℕ → Fin (sites p) → Fin 2 =>
      equalTime (1 + cyclicProd (sys.fieldB sys.hs.expVu s fun _ _ => 1) L l)⁻¹
        (1 + cyclicProd (sys.fieldB sys.hs.expVd s fun _ _ => 1) L l)⁻¹
    (∀ X Y : OneBody (sites p), (hubbardStep p ^ L * opOf X * opOf Y).trace / Z
      = signedAverage sys L (fun _ _ => 1) fun s => (P s).corr X Y) ∧
    (∀ X : OneBody (sites p), (hubbardStep p ^ L * opOf X).trace / Z
      = signedAverage sys L (fun _ _ => 1) fun s => (P s).mean X) ∧
    (∀ X Y : PairOp (sites p), (hubbardStep p ^ L * pairOf X * (pairOf Y)ᵀ).trace / Z
      = signedAverage sys L (fun _ _ => 1) fun s => (P s).pairCorr X Y) := by
  obtain ⟨ho, h⟩ := program_describes hv hg sys hsys
  have h1 := thermal_averages_eq h (fun _ _ => 0) hl (by
    intro s hs
    simp only [mul_zero, Real.exp_zero] at hs
    exact hw (extend s) (by rw [weight_eq, hs, abs_zero]))
  simp only [mul_zero, Real.exp_zero] at h1
  have e : (fun _ : ℕ => stepOp (bondMatrix p) (fun i => p.U (sys.orb i : ℕ)) p.dt fun _ => 0)
      = fun _ => hubbardStep p := by
    unfold hubbardStep
    simp only [ho]
  rw [e] at h1
  have e2 : ∀ X : Op (Mode (sites p)), thermal (fun _ => hubbardStep p) L l X 1
      = (hubbardStep p ^ L * X).trace / (hubbardStep p ^ L).trace := by
    intro X
    unfold thermal
    rw [oprod_const, oprod_const, oprod_const, mul_one, Matrix.trace_mul_comm, ← mul_assoc, ← pow_add,
      Nat.add_sub_cancel' hl]
  simp only [e2] at h1
  intro Z P
  refine ⟨fun X Y => ?_, h1.2.1, fun X Y => ?_⟩
  · rw [mul_assoc]
    exact h1.1 X Y
  · rw [mul_assoc]
    exact h1.2.2 X Y

/-- the unequal time measurements -/
theorem program_thermal_averages_uneq (hv : Admissible p) (hg : Guards p) (sys : Sys Seed (sites p) MeasData)
    (hsys : sysOf mc p = some sys) {L l : ℕ} (hl : l ≤ L)
    (hw : ∀ s : ℕ → Fin (sites p) → Fin 2, sys.weight L s (fun _ _ => 1) ≠ 0) :
    let Z := (hubbardStep p ^ L).trace
    let P := fun s : ℕ → Fin (sites p) → Fin 2 =>
      unequalTime (exactG (sys.fieldB sys.hs.expVu s fun _ _ => 1) L)
        (exactG (sys.fieldB sys.hs.expVd s fun _ _ => 1) L) l
    (∀ X Y : OneBody (sites p), (hubbardStep p ^ (L - l) * opOf X * hubbardStep p ^ l * opOf Y).trace / Z
      = signedAverage sys L (fun _ _ => 1) fun s => (P s).corr X Y) ∧
    (∀ X Y : PairOp (sites p), (hubbardStep p ^ (L - l) * pairOf X * hubbardStep p ^ l * (pairOf Y)ᵀ).trace / Z
      = signedAverage sys L (fun _ _ => 1) fun s => (P s).pairCorr X Y) := by
  obtain ⟨ho, h⟩ := program_describes hv hg sys hsys
  have h1 := thermal_averages h (fun _ _ => 0) hl (by
    intro s hs
    simp only [mul_zero, Real.exp_zero] at hs
    exact hw (extend s) (by rw [weight_eq, hs, abs_zero]))
  simp only [mul_zero, Real.exp_zero] at h1
  have e : (fun _ : ℕ => stepOp (bondMatrix p) (fun i => p.U (sys.orb i : ℕ)) p.dt fun _ => 0)
      = fun _ => hubbardStep p := by
    unfold hubbardStep
    simp only [ho]
  rw [e] at h1
  simp only [thermal, oprod_const] at h1
  exact ⟨h1.1, h1.2.2⟩

/-- non-vacuity: the small system satisfies all hypotheses -/
example : ∃ mc : Machine, ∃ sys : Sys Seed (sites exP) MeasData, Admissible exP ∧ Guards exP ∧
    sysOf mc exP = some sys ∧ ∀ L s, sys.weight L s (fun _ _ => 1) ≠ 0 := by
  obtain ⟨mc, hmc⟩ := machine_exists
  obtain ⟨sys, hsys, -⟩ := sys_defined hmc exP_admissible exP_guards.U exP_guards.shift (by decide) ""
  exact ⟨mc, sys, exP_admissible, exP_guards, hsys, fun L s =>
    weight_one_site hmc exP_admissible exP_guards rfl sys hsys L s _ fun _ _ => one_pos⟩

end Verif.Fock
