import Verif.Props.ExpectedUneq

/-! # Properties C73, C74 for the parameters of a run -/

set_option autoImplicit false

namespace Verif.MonteCarlo

open Matrix MeasureTheory Verif.Fock Verif.Measurement Verif.Main Verif.Progress Verif.Random Verif.Params

variable {σ : Type} [MeasurableSpace σ] {P : Measure σ} {mc : Machine} {p : SimParams ℝ}

/-- C73, C74 for accepted parameters within the guards: if the generator is replaced by an ideal source `rng` and the
initial field is distributed according to the weights, all runs without phonons end, the final field is distributed
according to the weights, and the results have the expectation values of the Hubbard model. -/
theorem program_expected [NeZero (sites p)] (hmc : mc.Rounds) (hv : Admissible p) (hg : Guards p)
    (hN : sites p < 2 ^ 31) (hp : p.usePhonons = false) (fnbase : String) (rng : Rng σ) (hlaw : rng.Lawful (sites p))
    (hP : rng.Ideal (sites p) P) (sys : Sys Seed (sites p) MeasData) (hsys : sysOf mc p = some sys)
    (hw : ∀ s, sys.weight p.L.toNat s (fun _ _ => 1) ≠ 0) (stop : ℤ → Bool) (it : ℤ) (X expX : ℕ → Fin (sites p) → ℝ)
    (cnt : Counters) (maxNsampl : ℕ) :
    let L := p.L.toNat
    let cfg := (mkSetup mc p fnbase).cfg
    let sys' := sys.withRng rng
    ∃ R : Field L (sites p) → σ → LoopResult (State σ (sites p) MeasData),
      (∀ x r, simulate sys' (mkSetup mc p fnbase).ph cfg stop it r (Fock.extend x) X expX cnt
        (MeasData.allocate maxNsampl) = some (R x r)) ∧
      (∀ x', ∑ x, sys.weight L (Fock.extend x) (fun _ _ => 1) * P.real {r | fieldOf L (R x r).state.s = x'}
        = sys.weight L (Fock.extend x') (fun _ _ => 1)) ∧
      (0 < eqCount cfg stop it →
        EqThermal p.Nx.toNat p.Ny.toNat p.Norb.toNat p.pbcShift 0 (thermalMean (hubbardStep p) L) fun f z =>
          expected sys' L P (fun x r => (R x r).state.meas.eq.arr f z) /
            expected sys' L P (fun x r => (R x r).state.meas.eq.sign)) ∧
      (0 < uneqCount cfg stop it →
        UneqThermal p.Nx.toNat p.Ny.toNat p.Norb.toNat L p.pbcShift 0 (p.Nx.toNat = 1 ↔ p.Ny.toNat = 1)
          (thermalPair (hubbardStep p) L) fun f z =>
          expected sys' L P (fun x r => (R x r).state.meas.uneq.arr f z) /
            expected sys' L P (fun x r => (R x r).state.meas.uneq.sign)) := by
  intro L cfg sys'
  have h1 := hv.norb
  have h2 := hv.nx
  have h3 := hv.ny
  have h4 := hv.l
  obtain ⟨sys0, e0, hok0, -, hmeas⟩ := sys_defined hmc hv hg.U hg.shift hN fnbase
  obtain rfl : sys0 = sys := Option.some.inj (e0.symm.trans hsys)
  have hok : sys'.Ok cfg.prodBlen := ⟨hok0.expK, hok0.hs, hlaw, hok0.dvd⟩
  have hL : 0 < cfg.L := by show 0 < p.L.toNat; omega
  have hd : cfg.prodBlen ∣ cfg.L := toNat_dvd hv.prodBlen hv.l hv.dvdL
  have hw' : ∀ x : Field cfg.L (sites p), sys'.weight cfg.L (Fock.extend x) (fun _ _ => 1) ≠ 0 := fun x => hw _
  have hP' : sys'.rng.Ideal (sites p) P := hP
  obtain ⟨f, -, hf⟩ := hP.shuffle
  have hdef : ∀ (x : Field cfg.L (sites p)) (r : σ), ∃ R, simulate sys' (mkSetup mc p fnbase).ph cfg stop it r
      (Fock.extend x) X expX cnt (MeasData.allocate maxNsampl) = some R := fun x r =>
    simulate_defined hok hL hd hp stop it r _ X expX cnt _ (hw' x) (fun r => by
      show rng.shuffle _ r ≠ none
      rw [hf r]
      simp) (fun gu gd m => eq_defined hv hg hmeas gu gd m)
      (fun hn st hst => uneq_defined (sys := sys') hv hg hn rfl rfl hmeas st hst st.meas)
  choose R hR using hdef
  obtain ⟨ho, hdes⟩ := program_describes hv hg sys0 hsys
  have hD : Describes sys' p.Norb.toNat (bondMatrix p) (fun o => p.U o) p.dt := ⟨hdes.nonneg, hdes.orb, hdes.hs, hdes.expK⟩
  have hstep : stepOf sys' (bondMatrix p) (fun o => p.U o) p.dt = hubbardStep p := by
    unfold stepOf hubbardStep
    have : ∀ i, sys'.orb i = i.val / (p.Nx.toNat * p.Ny.toNat) := ho
    simp only [this]
  have hNN : sites p = p.Nx.toNat * p.Ny.toNat * p.Norb.toNat := by unfold sites; ring
  refine ⟨R, hR, fun x' => ?_, fun hc => ?_, fun hc => ?_⟩
  · have := hP.prob
    have h := simulate_stationary hP' hok hL hd hp stop it X expX cnt _ R (fun x r _ => hR x r) x' Set.univ
      MeasurableSet.univ
    simp only [Set.mem_univ, and_true, probReal_univ, mul_one] at h
    exact h
  · have h := expected_equal_times hP' hok hL hd hp (by omega) (by omega) hNN hg.shift hmeas (bondMatrix_symm p) hD hw'
      stop it hc X expX cnt _ rfl R hR
    rw [hstep] at h
    exact h
  · have h := expected_unequal_times hP' hok hL hd hp (by omega) (by omega) hNN hg.shift hmeas (bondMatrix_symm p) hD hw'
      stop it hc X expX cnt _ rfl R hR
    rw [hstep] at h
    exact h

/-- non-vacuity: the small system with an ideal source satisfies all hypotheses, and it does measure -/
example : ∃ mc : Machine, ∃ sys : Sys Seed (sites exP) MeasData, mc.Rounds ∧ Admissible exP ∧ Guards exP ∧
    sysOf mc exP = some sys ∧ (∀ s, sys.weight exP.L.toNat s (fun _ _ => 1) ≠ 0) ∧
    (idealRng (sites exP)).Lawful (sites exP) ∧
    (idealRng (sites exP)).Ideal (sites exP) (independent (drawDist (sites exP))) ∧
    0 < eqCount (mkSetup mc exP "").cfg (fun _ => false) 0 := by
  obtain ⟨mc, hmc⟩ := machine_exists
  obtain ⟨sys, hsys, -⟩ := sys_defined hmc exP_admissible exP_guards.U exP_guards.shift (by decide) ""
  refine ⟨mc, sys, hmc, exP_admissible, exP_guards, hsys, fun s =>
    weight_one_site hmc exP_admissible exP_guards rfl sys hsys _ s _ fun _ _ => one_pos, idealRng_lawful _,
    idealRng_ideal _, ?_⟩
  show 0 < eqCount ⟨1, 1, false, _, _, _, _, _⟩ _ _
  decide

/-- the small system with two time slices and unequal time measurements -/
noncomputable def exU : SimParams ℝ := { exP with L := 2, nuneqlt := 1 }

theorem exU_admissible : Admissible exU := by
  constructor <;> first | (intros; rfl) | (intros; left; rfl) | (unfold exU exP; norm_num; done) |
    exact exP_admissible.itime

theorem exU_guards : Guards exU := by
  refine ⟨fun o _ => ?_, le_refl 0, fun h => Bool.noConfusion h, fun _ => by unfold exU exP; norm_num⟩
  norm_num [exU, exP]

instance : NeZero (sites exU) := ⟨by decide⟩

/-- non-vacuity: it satisfies all hypotheses and measures at equal and unequal times -/
example : ∃ mc : Machine, ∃ sys : Sys Seed (sites exU) MeasData, mc.Rounds ∧ Admissible exU ∧ Guards exU ∧
    sysOf mc exU = some sys ∧ (∀ s, sys.weight exU.L.toNat s (fun _ _ => 1) ≠ 0) ∧
    0 < eqCount (mkSetup mc exU "").cfg (fun _ => false) 0 ∧
    0 < uneqCount (mkSetup mc exU "").cfg (fun _ => false) 0 := by
  obtain ⟨mc, hmc⟩ := machine_exists
  obtain ⟨sys, hsys, -⟩ := sys_defined hmc exU_admissible exU_guards.U exU_guards.shift (by decide) ""
  refine ⟨mc, sys, hmc, exU_admissible, exU_guards, hsys, fun s =>
    weight_one_site hmc exU_admissible exU_guards rfl sys hsys _ s _ fun _ _ => one_pos, ?_, ?_⟩
  · show 0 < eqCount ⟨2, 1, false, _, _, _, _, _⟩ _ _
    decide
  · show 0 < uneqCount ⟨2, 1, false, _, _, _, _, _⟩ _ _
    decide

end Verif.MonteCarlo
