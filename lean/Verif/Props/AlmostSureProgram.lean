import Verif.Props.AlmostSure
import Verif.Props.IdealSource
import Verif.Props.Program

/-! # Properties C77, C79 for the parameters of a run -/

set_option autoImplicit false

namespace Verif.MonteCarlo

open MeasureTheory Verif.Fock Verif.Measurement Verif.Main Verif.Progress Verif.Random Verif.Params

variable {σ : Type} [MeasurableSpace σ] {P : Measure σ} {mc : Machine} {p : SimParams ℝ} {rest : Measure ℝ}
  [SigmaFinite rest]

/-- C77, C79 for accepted parameters within the guards, with phonons and at least two slices: if the generator is
replaced by an ideal source `rng` and the initial configuration is distributed according to the weights, then the run is
defined with probability one, and the final configuration is distributed according to the weights -/
theorem program_stationary_ph [NeZero (sites p)] (hmc : mc.Rounds) (hv : Admissible p) (hg : Guards p)
    (hN : sites p < 2 ^ 31) (hp : p.usePhonons = true) (hL : 2 ≤ p.L) (fnbase : String) (rng : Rng σ)
    (hlaw : rng.Lawful (sites p)) (hP : rng.Ideal (sites p) P) (sys : Sys Seed (sites p) MeasData)
    (hsys : sysOf mc p = some sys) (stop : ℤ → Bool) (it : ℤ) (cnt : Counters) (meas : MeasData)
    (hmeas : meas.ph = PhData.allocate (mkSetup mc p fnbase).maxNsampl) :
    let L := p.L.toNat
    let ph := phOf p
    let run := fun (x : Conf L (sites p)) (r : σ) => simulate (sys.withRng rng) ph (mkSetup mc p fnbase).cfg stop it r
      (Fock.extend x.1) (extendX x.2) (sys.expOf ph (extendX x.2)) cnt meas
    let dist := confDist sys ph rest L
    (∀ᵐ y ∂dist.prod P, ∃ r, run y.1 y.2 = some r) ∧
    ∀ S, MeasurableSet S → (dist.prod P) {y | ∃ r, run y.1 y.2 = some r ∧
      (fieldOf L r.state.s, pathsOf L r.state.X) ∈ S} = dist S := by
  intro L ph run dist
  obtain ⟨sys0, e0, hok0, -, hm⟩ := sys_defined hmc hv hg.U hg.shift hN fnbase
  obtain rfl : sys0 = sys := Option.some.inj (e0.symm.trans hsys)
  have hok : (sys0.withRng rng).Ok (mkSetup mc p fnbase).cfg.prodBlen := ⟨hok0.expK, hok0.hs, hlaw, hok0.dvd⟩
  have hL' : 2 ≤ (mkSetup mc p fnbase).cfg.L := by show 2 ≤ p.L.toNat; omega
  have hd : (mkSetup mc p fnbase).cfg.prodBlen ∣ (mkSetup mc p fnbase).cfg.L := toNat_dvd hv.prodBlen hv.l hv.dvdL
  have hP' : (sys0.withRng rng).rng.Ideal (sites p) P := hP
  have hQ : Budget (sys0.withRng rng) (mkSetup mc p fnbase).cfg.L Room := room_budget hv hg hm
  have hq : Room (samples (mkSetup mc p fnbase).cfg it) meas := room_start hv (hg.neqlt hp) fnbase it meas hmeas
  refine ⟨?_, fun S hS => ?_⟩
  · exact simulate_almost_surely_defined (rest := rest) hP' hok hL' hd hp hQ
      (fun hn st n hst hm' => room_uneq (sys := sys0.withRng rng) hv hg hn rfl rfl hm st n hst hm') stop it cnt meas hq
  · have := hP.prob
    have h := simulate_stationary_ph (ph := ph) (rest := rest) hP' hok hL' hd hp hQ
      (fun hn st n hst hm' => room_uneq (sys := sys0.withRng rng) hv hg hn rfl rfl hm st n hst hm') stop it cnt meas hq
      S hS Set.univ MeasurableSet.univ
    simp only [Set.mem_univ, and_true, measure_univ, mul_one] at h
    exact h

/-- the small system with phonons and two time slices -/
noncomputable def exQ : SimParams ℝ := { exPph with L := 2 }

theorem exQ_admissible : Admissible exQ := by
  constructor <;> first | (intros; rfl) | (intros; left; rfl) | (unfold exQ exPph exP; norm_num; done) |
    exact exPph_admissible.itime

theorem exQ_guards : Guards exQ := by
  refine ⟨fun o _ => ?_, le_refl 0, fun _ => ?_, fun h => ?_⟩
  · norm_num [exQ, exPph, exP]
  · norm_num [exQ, exPph, exP]
  · norm_num [exQ, exPph, exP] at h

instance : NeZero (sites exQ) := ⟨by decide⟩

/-- non-vacuity: the small system with an ideal source satisfies all hypotheses -/
example : ∃ mc : Machine, ∃ sys : Sys Seed (sites exQ) MeasData, mc.Rounds ∧ Admissible exQ ∧ Guards exQ ∧
    exQ.usePhonons = true ∧ 2 ≤ exQ.L ∧ sysOf mc exQ = some sys ∧
    (idealRng (sites exQ)).Lawful (sites exQ) ∧
    (idealRng (sites exQ)).Ideal (sites exQ) (independent (drawDist (sites exQ))) := by
  obtain ⟨mc, hmc⟩ := machine_exists
  obtain ⟨sys, hsys, -⟩ := sys_defined hmc exQ_admissible exQ_guards.U exQ_guards.shift (by decide) ""
  exact ⟨mc, sys, hmc, exQ_admissible, exQ_guards, rfl, le_refl _, hsys, idealRng_lawful _, idealRng_ideal _⟩

end Verif.MonteCarlo
