import Verif.Props.FreeRun
import Verif.Props.Convergence

/-! # Property C128: without interaction every run gives the exact correlation functions in imaginary time -/

set_option autoImplicit false

namespace Verif.MonteCarlo

open Matrix Verif.Lapack Verif.TimeFlow Verif.Fock Verif.Greens Verif.GreensUneq Verif.Measurement Verif.Main Verif.Random Verif.Params
open Verif.Files Verif.Stratonovich Verif.Trotter

variable {σ : Type} {N : ℕ} {M : Type}

/-- the unequal time Green's functions of all samples without interaction -/
noncomputable def freeTimes (E : Mat N) (L : ℕ) : TimeG N := exactG (fun _ => E) L

section

variable {sys : Sys σ N M} {Norb : ℕ} {U : ℕ → ℝ} {dt : ℝ} (hp : fill Norb U dt = some sys.hs)
  (hN : ∀ i : Fin N, sys.orb i < Norb) (hU : ∀ o < Norb, U o = 0)
include hp hN hU

theorem free_timeGreen (L : ℕ) (s : ℕ → Fin N → Fin 2) :
    timeGreen sys L sys.hs.expVu s = freeTimes sys.expK L ∧ timeGreen sys L sys.hs.expVd s = freeTimes sys.expK L := by
  have hz := fun (i : Fin N) v => fill_zero Norb U dt sys.hs hp (sys.orb i) (hU _ (hN i)) v
  have e1 : sys.fieldB sys.hs.expVu s (fun _ _ => 1) = fun _ => sys.expK := by
    funext l
    simp only [Sys.fieldB, (hz _ _).1, mul_one, diagonal_one, Matrix.one_mul]
  have e2 : sys.fieldB sys.hs.expVd s (fun _ _ => 1) = fun _ => sys.expK := by
    funext l
    simp only [Sys.fieldB, (hz _ _).2.1, mul_one, diagonal_one, Matrix.one_mul]
  unfold timeGreen
  rw [e1, e2]
  exact ⟨rfl, rfl⟩

end

/-- the estimates from the Green's functions without interaction are the expectation values without interaction -/
theorem free_thermal_pair [NeZero N] {sys : Sys σ N M} {Nx Ny Norb L : ℕ} {s : ℤ} {U : ℕ → ℝ} {dt : ℝ} {K : Mat N}
    (hD : Describes sys Norb K U dt) (hK : K.IsSymm) (hU : ∀ o < Norb, U o = 0) (hpd : sys.expK.PosDef) {e : UneqF → ℤ → ℝ}
    (he : UneqEstimates Nx Ny Norb L s 0 (Nx = 1 ↔ Ny = 1) (freeTimes sys.expK L) (freeTimes sys.expK L) e) :
    UneqThermal Nx Ny Norb L s 0 (Nx = 1 ↔ Ny = 1) (thermalPair (stepOf sys K U dt) L) e := by
  have hne : ∀ x : Field L N, signed sys L (Fock.extend x) (fun _ _ => 1) ≠ 0 := fun x =>
    (free_signed hD.hs hD.orb hU hpd L _).ne'
  have hS := (signedSum_pos (L := L) hD hK).ne'
  rw [uneqThermal_iff]
  refine uneqHolds_of_means hK hD hne fun f z V T hV hT => ?_
  rw [hV _ _ e he, ← hT]
  simp only [(free_timeGreen hD.hs hD.orb hU L _).1, (free_timeGreen hD.hs hD.orb hU L _).2]
  exact (average_const hne hS _).symm

/-- without interaction there is no error of the time slices -/
theorem free_gibbs_pair (K : Mat N) (dt : ℝ) {L l : ℕ} (hl : l ≤ L) (X Y : Op (Mode N)) :
    thermalPair (stepOp K (fun _ => 0) dt fun _ => 0) L l X Y = gibbsPair (hopOp K) (L * dt) (l * dt) X Y := by
  have e1 : stepOp K (fun _ => 0) dt (fun _ => 0) = NormedSpace.exp (-dt • hopOp K) := by
    unfold stepOp
    have h1 : repOp (fun _ : Fin N => (0 : ℝ)) = 0 := by simp [repOp]
    have h2 : potOp (fun _ : Fin N => (0 : ℝ)) = 0 := by simp [potOp]
    rw [h1, h2, smul_zero, NormedSpace.exp_zero, one_mul, one_mul]
  have e2 : ∀ n : ℕ, NormedSpace.exp (-dt • hopOp K) ^ n = NormedSpace.exp (-(n * dt) • hopOp K) := fun n => by
    rw [← Matrix.exp_nsmul, ← Nat.cast_smul_eq_nsmul ℝ, smul_smul]
    congr 2
    ring
  unfold thermalPair gibbsPair
  rw [e1, e2, e2, e2, Nat.cast_sub hl, sub_mul]

/-- values at the times in the arrays only -/
theorem UneqThermal.congr [NeZero N] {Nx Ny Norb L : ℕ} {s t : ℤ} {b1 : Prop} {T T' : ℕ → Op (Mode N) → Op (Mode N) → ℝ}
    {e : UneqF → ℤ → ℝ} (h : UneqThermal Nx Ny Norb L s t b1 T e) (hT : ∀ l < L, T l = T' l) :
    UneqThermal Nx Ny Norb L s t b1 T' e := by
  constructor
  · intro f hf l o p hl ho hp dx dy
    rw [h.corr f hf l o p hl ho hp dx dy]
    refine congrArg (cellAvg _) (funext fun c => ?_)
    fin_cases hf <;> simp only [uvalue, hT l hl, hT 0 (by omega)]
  · intro f hf hb l o hl ho dx dy
    rw [h.pair f hf hb l o hl ho dx dy]
    refine congrArg (cellAvg _) (funext fun c => ?_)
    fin_cases hf <;> simp only [upairValue, hT l hl]

end Verif.MonteCarlo

namespace Verif.Main

open Verif.Random Verif.Measurement Verif.MonteCarlo Verif.Files Verif.Params Verif.Lattice Verif.Fock Verif.Trotter Verif.GreensUneq

variable {mc : Machine} {p : SimParams ℝ}

/-- C128: without interaction and phonons, the arrays of the unequal time measurements which a run from scratch writes are exactly the
correlation functions in imaginary time without interaction, whatever the seed, the number of iterations, the number and length of time
slices, and interruptions -/
theorem free_run_uneq [NeZero (sites p)] (hmc : mc.Rounds) (hv : Admissible p) (hg : Guards p) (hN : sites p < 2 ^ 31)
    (hp : p.usePhonons = false) (hU : ∀ o : ℕ, o < p.Norb.toNat → p.U o = 0) (hnu : 0 < p.nuneqlt) (fnbase : String) (fs : FS)
    (hfs : searchCheckpoint fs fnbase ≠ 0) :
    ∃ e : UneqF → ℤ → ℝ, UneqThermal p.Nx.toNat p.Ny.toNat p.Norb.toNat p.L.toNat p.pbcShift 0 (p.Nx.toNat = 1 ↔ p.Ny.toNat = 1)
        (fun l => gibbsPair (hopOp (bondMatrix p)) (p.L.toNat * p.dt) (l * p.dt)) e ∧
      ∀ (inp : RunInput), inp.Clean → ∀ (fs1 : FS) (code : ℤ), process (mkSetup mc p fnbase) inp fs = some (fs1, code) →
      ∃ (w : ℝ) (n : ℕ), (w = n ∨ w = n / n) ∧ fs1 (fnbase ++ "_uneqlt_nsampl.dat") = some (encInt n) ∧
        fs1 (fnbase ++ "_uneqlt_sign.dat") = some (encDouble w) ∧
        ∀ f ∈ uneqSaveFiles, fs1 (fnbase ++ f.2) = some (encArray encDouble
          (UneqF.size p.Norb.toNat (p.Nx.toNat * p.Ny.toNat) p.L.toNat f.1).toNat fun i => w * e f.1 i) := by
  obtain ⟨sys, hsys, hok⟩ := mkSetup_ok hmc hv hg hN hp fnbase
  obtain ⟨sys', hsys', -, -, hmeas⟩ := sys_defined hmc hv hg.U hg.shift hN fnbase
  obtain rfl : sys' = sys := Option.some.inj (hsys'.symm.trans hsys)
  have h1 := hv.nx
  have h2 := hv.ny
  have hx : 0 < p.Nx.toNat := by omega
  have hy : 0 < p.Ny.toNat := by omega
  have hNN : sites p = p.Nx.toNat * p.Ny.toNat * p.Norb.toNat := by unfold sites; ring
  obtain ⟨ho, hD⟩ := program_describes hv hg sys' hsys
  have hpd := program_posDef hv hg sys' hsys
  set F := freeTimes sys'.expK p.L.toNat with hF
  obtain ⟨e, he, hadd⟩ := accumulateUneq_estimates (N := sites p) hx hy hNN p.pbcShift hg.shift mc.maps p.L.toNat F F
    (exactG_start _ _) (exactG_start _ _) 1 (Or.inl rfl)
  refine ⟨e, ?_, ?_⟩
  · refine (free_thermal_pair hD (bondMatrix_symm p) hU hpd he).congr fun l hl => ?_
    funext X Y
    rw [← free_gibbs_pair (bondMatrix p) p.dt hl.le]
    unfold stepOf
    have : (fun i => p.U (sys'.orb i : ℕ)) = fun _ : Fin (sites p) => (0 : ℝ) := funext fun i => hU _ (hD.orb i)
    rw [this]
  · intro inp hc fs1 code h
    obtain ⟨r, h1, h2, h3, h4⟩ := results_uneq hc hnu (startup_fresh (mkSetup mc p fnbase) fs hfs) h
    have hr : r.state.meas.uneq.sign = r.state.meas.uneq.nsampl ∧
        ∀ f z, r.state.meas.uneq.arr f z = r.state.meas.uneq.nsampl * e f z := by
      rw [perform_eq hok] at h1
      have hL : (mkSetup mc p fnbase).cfg.L = p.L.toNat := rfl
      have h0 : (MeasData.allocate (mkSetup mc p fnbase).maxNsampl).uneq = UneqData.allocate := rfl
      generalize MeasData.allocate (mkSetup mc p fnbase).maxNsampl = meas at h1 h0
      clear h h2 h3 h4
      generalize mkSetup mc p fnbase = su at *
      have hM : MeasInv sys' su.ph su.cfg fun m => m.uneq.sign = m.uneq.nsampl ∧
          ∀ f z, m.uneq.arr f z = m.uneq.nsampl * e f z := by
        refine ⟨fun _ neqlt s l Gu Gd m m' _ _ _ _ hq eq => ?_, fun hu => absurd hu (by rw [hok.phonons]; simp),
          fun st m' hi hq eq => ?_⟩
        · rw [hmeas] at eq
          simp only [realMeas, Option.map_eq_some_iff] at eq
          obtain ⟨d, -, rfl⟩ := eq
          exact hq
        · unfold AtRest at hi
          rw [if_neg (by rw [hok.phonons]; simp), hL] at hi
          rw [hmeas] at eq
          simp only [realMeas, Option.bind_eq_bind] at eq
          obtain ⟨a, ea, eq⟩ := Option.bind_eq_some_iff.1 eq
          obtain ⟨b, eb, eq⟩ := Option.bind_eq_some_iff.1 eq
          obtain ⟨c, ec, eq⟩ := Option.bind_eq_some_iff.1 eq
          obtain rfl := Option.some.inj eq
          have hs : st.Gu.sgndet * st.Gd.sgndet = 1 :=
            (free_green hD.hs hD.orb hU hpd ⟨hi.up.good, hi.down.good⟩).2.2
          rw [compute_exact hi.up ea, compute_exact hi.down eb, hs, (free_timeGreen hD.hs hD.orb hU _ _).1,
            (free_timeGreen hD.hs hD.orb hU _ _).2, Int.cast_one, hadd] at ec
          obtain rfl := Option.some.inj ec
          refine ⟨?_, fun f z => ?_⟩
          · simp only [hq.1]
            push_cast
            ring
          · simp only [hq.2 f z]
            push_cast
            ring
      have hX : su.cfg.usePhonons = true → ∀ l < su.cfg.L, ∀ i,
          su.expX0 l i = sys'.expOf su.ph (unflat fun _ => 0) l i :=
        fun hu => absurd hu (by rw [hok.phonons]; simp)
      refine (simulate_inv hok.ok hok.L hok.dvd _ hM inp.stop _ _ _ _ _ _ meas hX ?_ r h1).2
      rw [h0]
      simp [UneqData.allocate]
    refine ⟨_, _, ?_, h2, h3, fun f hf => ?_⟩
    · unfold avg
      rw [hr.1]
      split
      · exact Or.inr rfl
      · exact Or.inl rfl
    · rw [show fs1 (fnbase ++ f.2) = _ from h4 f hf]
      congr 1
      refine encArray_congr _ _ _ _ fun i hi => ?_
      rw [hr.2, hr.1]
      unfold avg
      split <;> ring

/-- as `exFree`, with unequal time measurements in every iteration -/
noncomputable def exFreeT : SimParams ℝ := { exFree with nuneqlt := 1 }

theorem exFreeT_admissible : Admissible exFreeT := by
  constructor <;> first | (intros; rfl) | (intros; left; rfl) | decide

theorem exFreeT_guards : Guards exFreeT := by
  refine ⟨fun o _ => ?_, le_refl 0, fun h => Bool.noConfusion h, fun _ => by decide⟩
  norm_num [exFreeT, exFree]

instance : NeZero (sites exFreeT) := ⟨by decide⟩

/-- non-vacuity: a run ends, and writes the Green's function at the second time slice -/
example (mc : Machine) (hmc : mc.Rounds) (inp : RunInput) (hc : inp.Clean) (fs : FS) (hfs : searchCheckpoint fs "x" ≠ 0) :
    ∃ fs1 code w e, process (mkSetup mc exFreeT "x") inp fs = some (fs1, code) ∧
      fs1 "x_uneqlt_sign.dat" = some (encDouble w) ∧
      UneqThermal 2 2 1 4 0 0 (2 = 1 ↔ 2 = 1) (fun l => gibbsPair (hopOp (bondMatrix exFreeT)) (4 * exFreeT.dt) (l * exFreeT.dt)) e := by
  obtain ⟨⟨fs1, code⟩, h⟩ := (free_run hmc exFreeT_admissible exFreeT_guards (by decide) rfl (fun _ _ => rfl) "x" fs hfs).1 inp
  obtain ⟨e, he, H⟩ := free_run_uneq hmc exFreeT_admissible exFreeT_guards (by decide) rfl (fun _ _ => rfl) (by decide) "x" fs hfs
  obtain ⟨w, n, -, -, h2, -⟩ := H inp hc fs1 code h
  exact ⟨fs1, code, w, e, h, h2, he⟩

end Verif.Main
