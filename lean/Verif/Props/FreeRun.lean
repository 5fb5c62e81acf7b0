import Verif.Props.HalfFilling
import Verif.Props.Trotter

/-! # Property C97: without interaction every run gives the exact expectation values -/

set_option autoImplicit false

namespace Verif.MonteCarlo

open Matrix Verif.Lapack Verif.TimeFlow Verif.Fock Verif.Greens Verif.Measurement Verif.Main Verif.Random Verif.Params
open Verif.Files Verif.Stratonovich Verif.Trotter

variable {σ : Type} {N : ℕ} {M : Type} {sys : Sys σ N M}

theorem prodSeq_const (A : Mat N) (k : ℕ) : prodSeq (fun _ => A) k = A ^ k := by
  induction k with
  | zero => rw [prodSeq, pow_zero]
  | succ k ih => rw [prodSeq, ih, pow_succ']

section

variable {Norb : ℕ} {U : ℕ → ℝ} {dt : ℝ} (hp : fill Norb U dt = some sys.hs) (hN : ∀ i : Fin N, sys.orb i < Norb)
  (hU : ∀ o < Norb, U o = 0)
include hp hN hU

/-- the time flow does not depend on the field -/
theorem free_cyclic (L l : ℕ) (s : ℕ → Fin N → Fin 2) :
    cyclicProd (sys.fieldB sys.hs.expVu s fun _ _ => 1) L l = sys.expK ^ L ∧
    cyclicProd (sys.fieldB sys.hs.expVd s fun _ _ => 1) L l = sys.expK ^ L := by
  have hz := fun (i : Fin N) v => fill_zero Norb U dt sys.hs hp (sys.orb i) (hU _ (hN i)) v
  have e1 : sys.fieldB sys.hs.expVu s (fun _ _ => 1) = fun _ => sys.expK := by
    funext l
    simp only [Sys.fieldB, (hz _ _).1, mul_one, diagonal_one, Matrix.one_mul]
  have e2 : sys.fieldB sys.hs.expVd s (fun _ _ => 1) = fun _ => sys.expK := by
    funext l
    simp only [Sys.fieldB, (hz _ _).2.1, mul_one, diagonal_one, Matrix.one_mul]
  rw [e1, e2]
  exact ⟨prodSeq_const _ _, prodSeq_const _ _⟩

/-- all weights are positive -/
theorem free_signed (hpd : sys.expK.PosDef) (L : ℕ) (s : ℕ → Fin N → Fin 2) : 0 < signed sys L s fun _ _ => 1 := by
  obtain ⟨e1, e2⟩ := free_cyclic hp hN hU L 0 s
  have h : 0 < (1 + sys.expK ^ L).det := (PosDef.one.add (posDef_pow hpd L)).det_pos
  unfold signed Sys.flow
  rw [e1, e2]
  exact mul_pos h h

/-- the Green's functions of all samples -/
theorem free_green (hpd : sys.expK.PosDef) {L l : ℕ} {s : ℕ → Fin N → Fin 2} {Gu Gd : GreensFn N}
    (h : Exact sys L (fun _ _ => 1) s l Gu Gd) :
    Gu.mat = (1 + sys.expK ^ L)⁻¹ ∧ Gd.mat = (1 + sys.expK ^ L)⁻¹ ∧ Gu.sgndet * Gd.sgndet = 1 := by
  obtain ⟨e1, e2⟩ := free_cyclic hp hN hU L l s
  refine ⟨by rw [h.up.mat, e1], by rw [h.down.mat, e2], ?_⟩
  rw [h.sign_eq_one_iff, e1, e2]
  have h : 0 < (1 + sys.expK ^ L).det := (PosDef.one.add (posDef_pow hpd L)).det_pos
  exact mul_pos h h

end

/-- the estimates from the Green's function without interaction are the expectation values without interaction -/
theorem free_thermal [NeZero N] {Nx Ny Norb : ℕ} {s t : ℤ} {U : ℕ → ℝ} {dt : ℝ} {K : Mat N} (hD : Describes sys Norb K U dt)
    (hK : K.IsSymm) (hU : ∀ o < Norb, U o = 0) (hpd : sys.expK.PosDef) {L : ℕ} {e : EqF → ℤ → ℝ}
    (he : Estimates Nx Ny Norb s t (1 + sys.expK ^ L)⁻¹ (1 + sys.expK ^ L)⁻¹ e) :
    EqThermal Nx Ny Norb s t (thermalMean (stepOf sys K U dt) L) e := by
  have hne : ∀ x : Field L N, signed sys L (Fock.extend x) (fun _ _ => 1) ≠ 0 := fun x =>
    (free_signed hD.hs hD.orb hU hpd L _).ne'
  have hS := (signedSum_pos (L := L) hD hK).ne'
  have hG : ∀ s, greenAt sys L 0 sys.hs.expVu s = (1 + sys.expK ^ L)⁻¹ ∧
      greenAt sys L 0 sys.hs.expVd s = (1 + sys.expK ^ L)⁻¹ := fun s => by
    obtain ⟨e1, e2⟩ := free_cyclic hD.hs hD.orb hU L 0 s
    unfold greenAt
    rw [e1, e2]
    exact ⟨rfl, rfl⟩
  set G := (1 + sys.expK ^ L)⁻¹
  constructor
  · intro f hf o ho
    rw [he.dens f hf o ho]
    refine cellAvg_congr fun c _ => ?_
    rw [← dens_mean hD (Nat.zero_le L) hne _ f hf]
    simp only [hG]
    exact (average_const hne hS _).symm
  · intro f hf o p ho hp dx dy
    rw [he.corr f (by fin_cases hf <;> simp) o p ho hp dx dy]
    refine cellAvg_congr fun c _ => ?_
    rw [← corr_mean hD (Nat.zero_le L) hne _ _ f hf]
    simp only [hG]
    exact (average_const hne hS _).symm
  · intro f hf o ho dx dy
    rw [he.pair f hf o ho dx dy]
    refine cellAvg_congr fun c _ => ?_
    rw [← pair_mean hD (Nat.zero_le L) hne _ _ _ _ _ _ f hf]
    simp only [hG]
    exact (average_const hne hS _).symm
  · intro a b
    rw [he.grfunU, ← green_mean (l := 0) hD hK (Nat.zero_le L) hne a b true]
    simp only [hG]
    exact (average_const hne hS _).symm
  · intro a b
    rw [he.grfunD, ← green_mean (l := 0) hD hK (Nat.zero_le L) hne a b false]
    simp only [hG]
    exact (average_const hne hS _).symm

/-- without interaction there is no error of the time slices -/
theorem free_gibbs (K : Mat N) (dt : ℝ) (L : ℕ) (X : Op (Mode N)) :
    thermalMean (stepOp K (fun _ => 0) dt fun _ => 0) L X = gibbsMean (hopOp K) (L * dt) X := by
  have e1 : stepOp K (fun _ => 0) dt (fun _ => 0) = NormedSpace.exp (-dt • hopOp K) := by
    unfold stepOp
    have h1 : repOp (fun _ : Fin N => (0 : ℝ)) = 0 := by simp [repOp]
    have h2 : potOp (fun _ : Fin N => (0 : ℝ)) = 0 := by simp [potOp]
    rw [h1, h2, smul_zero, NormedSpace.exp_zero, one_mul, one_mul]
  have e2 : NormedSpace.exp (-dt • hopOp K) ^ L = NormedSpace.exp (-(L * dt) • hopOp K) := by
    rw [← Matrix.exp_nsmul, ← Nat.cast_smul_eq_nsmul ℝ, smul_smul]
    congr 2
    ring
  unfold thermalMean gibbsMean
  rw [e1, e2]

end Verif.MonteCarlo

namespace Verif.Main

open Verif.Random Verif.Measurement Verif.MonteCarlo Verif.Files Verif.Params Verif.Lattice Verif.Fock Verif.Trotter

variable {mc : Machine} {p : SimParams ℝ}

theorem program_posDef (hv : Admissible p) (hg : Guards p) (sys : Sys Seed (sites p) MeasData)
    (hsys : sysOf mc p = some sys) : sys.expK.PosDef := by
  have hx := hv.nx
  have hy := hv.ny
  obtain ⟨T, K, -, hK, -, -, -, -, -, -, hpd, -⟩ := Kinetic.kinetic_exponentials p.Norb.toNat p.Nx.toNat
    p.Ny.toNat (by omega) (by omega) p.pbcShift hg.shift p.t p.eps p.mu p.dt (mc.es _)
  unfold sysOf at hsys
  simp only [Option.bind_eq_bind] at hsys
  obtain ⟨a, ha, hsys⟩ := Option.bind_eq_some_iff.1 hsys
  obtain ⟨b, -, hsys⟩ := Option.bind_eq_some_iff.1 hsys
  obtain rfl := Option.some.inj hsys
  obtain rfl : K = a := Option.some.inj (hK.symm.trans ha)
  exact hpd

/-- C97: without interaction and phonons no run meets an undefined operation, and every run that starts from scratch
consists of samples with sign +1 which all have the same values, namely the exact expectation values without
interaction, whatever the seed, the number of iterations, the number and length of time slices, and interruptions -/
theorem free_run [NeZero (sites p)] (hmc : mc.Rounds) (hv : Admissible p) (hg : Guards p) (hN : sites p < 2 ^ 31)
    (hp : p.usePhonons = false) (hU : ∀ o : ℕ, o < p.Norb.toNat → p.U o = 0) (fnbase : String) (fs : FS)
    (hfs : searchCheckpoint fs fnbase ≠ 0) :
    (∀ inp, ∃ out, process (mkSetup mc p fnbase) inp fs = some out) ∧
    ∃ e : EqF → ℤ → ℝ, EqThermal p.Nx.toNat p.Ny.toNat p.Norb.toNat p.pbcShift 0
        (gibbsMean (hopOp (bondMatrix p)) (p.L.toNat * p.dt)) e ∧
      ∀ (inp : RunInput), inp.Clean → ∀ (fs1 : FS) (code : ℤ), process (mkSetup mc p fnbase) inp fs = some (fs1, code) →
      ∃ (w : ℝ) (n : ℕ), (w = n ∨ w = n / n) ∧ fs1 (fnbase ++ "_eqlt_nsampl.dat") = some (encInt n) ∧
        fs1 (fnbase ++ "_eqlt_sign.dat") = some (encDouble w) ∧
        ∀ f ∈ eqSaveFiles, fs1 (fnbase ++ f.2) = some (encArray encDouble
          (EqF.size p.Norb.toNat (p.Nx.toNat * p.Ny.toNat) f.1).toNat fun i => w * e f.1 i) := by
  obtain ⟨sys, hsys, hok⟩ := mkSetup_ok hmc hv hg hN hp fnbase
  obtain ⟨sys', hsys', -, -, hmeas⟩ := sys_defined hmc hv hg.U hg.shift hN fnbase
  obtain rfl : sys' = sys := Option.some.inj (hsys'.symm.trans hsys)
  have h1 := hv.nx
  have h2 := hv.ny
  have hx : 0 < p.Nx.toNat := by omega
  have hy : 0 < p.Ny.toNat := by omega
  have hNN : sites p = p.Nx.toNat * p.Ny.toNat * p.Norb.toNat := by unfold sites; ring
  obtain ⟨ho, hD⟩ := program_describes hv hg sys' hsys
  have hpd := program_posDef hv hg sys' hsys
  obtain ⟨e, he, -⟩ := accumulateEq_estimates (N := sites p) hx hy hNN p.pbcShift hg.shift mc.maps
    ⟨(1 + sys'.expK ^ p.L.toNat)⁻¹, 0, 1⟩ ⟨(1 + sys'.expK ^ p.L.toNat)⁻¹, 0, 1⟩ (Or.inl rfl) (Or.inl rfl)
  simp only at he
  refine ⟨fun inp => fresh_defined_partial hmc hv hg hN hp fnbase inp fs hfs fun sys hs s => ?_, e, ?_, ?_⟩
  · obtain rfl : sys' = sys := Option.some.inj (hsys'.symm.trans hs)
    rw [weight_eq]
    exact abs_ne_zero.2 (free_signed hD.hs hD.orb hU hpd _ _).ne'
  · have ht := free_thermal hD (bondMatrix_symm p) hU hpd he
    have e1 : ∀ X, thermalMean (stepOf sys' (bondMatrix p) (fun o => p.U o) p.dt) p.L.toNat X
        = gibbsMean (hopOp (bondMatrix p)) (p.L.toNat * p.dt) X := by
      intro X
      rw [← free_gibbs]
      unfold stepOf
      have : (fun i => p.U (sys'.orb i : ℕ)) = fun _ : Fin (sites p) => (0 : ℝ) := funext fun i => hU _ (hD.orb i)
      rw [this]
    rwa [show thermalMean (stepOf sys' (bondMatrix p) (fun o => p.U o) p.dt) p.L.toNat
        = gibbsMean (hopOp (bondMatrix p)) (p.L.toNat * p.dt) from funext e1] at ht
  · intro inp hc fs1 code h
    obtain ⟨r, h1, h2, h3, h4⟩ := results_eq hc (startup_fresh (mkSetup mc p fnbase) fs hfs) h
    have hr : r.state.meas.eq.sign = r.state.meas.eq.nsampl ∧
        ∀ f z, 0 ≤ z ∧ z < EqF.size p.Norb.toNat (p.Nx.toNat * p.Ny.toNat) f →
          r.state.meas.eq.arr f z = r.state.meas.eq.nsampl * e f z := by
      rw [perform_eq hok] at h1
      have hL : (mkSetup mc p fnbase).cfg.L = p.L.toNat := rfl
      have h0 : (MeasData.allocate (mkSetup mc p fnbase).maxNsampl).eq = EqData.allocate := rfl
      generalize MeasData.allocate (mkSetup mc p fnbase).maxNsampl = meas at h1 h0
      rw [← hL] at hmeas
      clear h h2 h3 h4
      generalize mkSetup mc p fnbase = su at *
      have hM : MeasInv sys' su.ph su.cfg fun m => m.eq.sign = m.eq.nsampl ∧
          ∀ f z, 0 ≤ z ∧ z < EqF.size p.Norb.toNat (p.Nx.toNat * p.Ny.toNat) f → m.eq.arr f z = m.eq.nsampl * e f z := by
        refine samples_inv hx hy hNN hg.shift hmeas hok.phonons (fun m => m.sign = m.nsampl ∧
          ∀ f z, 0 ≤ z ∧ z < EqF.size p.Norb.toNat (p.Nx.toNat * p.Ny.toNat) f → m.arr f z = m.nsampl * e f z)
          fun s l Gu Gd e' m _ hE he' hm => ?_
        obtain ⟨g1, g2, g3⟩ := free_green hD.hs hD.orb hU hpd hE
        rw [g1, g2, hL] at he'
        rw [g3]
        refine ⟨?_, fun f z hz => ?_⟩
        · simp only [hm.1]
          push_cast
          ring
        · simp only
          rw [hm.2 f z hz, Estimates.unique hx hy hNN he' he f z hz.1 hz.2]
          push_cast
          ring
      have hX : su.cfg.usePhonons = true → ∀ l < su.cfg.L, ∀ i,
          su.expX0 l i = sys'.expOf su.ph (unflat fun _ => 0) l i :=
        fun hu => absurd hu (by rw [hok.phonons]; simp)
      refine (simulate_inv hok.ok hok.L hok.dvd _ hM inp.stop _ _ _ _ _ _ meas hX ?_ r h1).2
      rw [h0]
      simp [EqData.allocate]
    refine ⟨_, _, ?_, h2, h3, fun f hf => ?_⟩
    · unfold avg
      rw [hr.1]
      split
      · exact Or.inr rfl
      · exact Or.inl rfl
    · rw [show fs1 (fnbase ++ f.2) = _ from h4 f hf]
      congr 1
      refine encArray_congr _ _ _ _ fun i hi => ?_
      have := hr.2 f.1 i ⟨by omega, by
        have : i < (EqF.size p.Norb.toNat (p.Nx.toNat * p.Ny.toNat) f.1).toNat := hi
        omega⟩
      rw [this, hr.1]
      unfold avg
      split <;> ring

/-- two by two sites with hopping and a chemical potential, four time slices, no interaction -/
noncomputable def exFree : SimParams ℝ :=
  { exHalf with U := fun _ => 0, mu := 1 / 2, L := 4, prodBlen := 2, nwraps := 2 }

theorem exFree_admissible : Admissible exFree := by
  constructor <;> first | (intros; rfl) | (intros; left; rfl) | decide

theorem exFree_guards : Guards exFree := by
  refine ⟨fun o _ => ?_, le_refl 0, fun h => Bool.noConfusion h, fun h => absurd h (lt_irrefl 0)⟩
  norm_num [exFree]

instance : NeZero (sites exFree) := ⟨by decide⟩

/-- non-vacuity -/
example (mc : Machine) (hmc : mc.Rounds) (inp : RunInput) (fs : FS) (hfs : searchCheckpoint fs "x" ≠ 0) :
    ∃ out, process (mkSetup mc exFree "x") inp fs = some out :=
  (free_run hmc exFree_admissible exFree_guards (by decide) rfl (fun _ _ => rfl) "x" fs hfs).1 inp

end Verif.Main
