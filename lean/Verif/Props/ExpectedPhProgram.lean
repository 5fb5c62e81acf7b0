import Verif.Props.ExpectedPh
import Verif.Props.ExpectedProgram

/-! # Property C78 for the parameters of a run -/

set_option autoImplicit false

namespace Verif.MonteCarlo

open MeasureTheory Verif.Fock Verif.Measurement Verif.Main Verif.Progress Verif.Random Verif.Params

/-! ## Specification -/

/-- orbital of a site -/
def orbitalOf (p : SimParams ℝ) (i : Fin (sites p)) : ℕ := i.val / (p.Nx.toNat * p.Ny.toNat)

/-- time step of the electrons for the phonon coordinates `y`: kinetic energy, interaction and coupling -/
noncomputable def holsteinStep (p : SimParams ℝ) (y : Fin (sites p) → ℝ) : Op (Mode (sites p)) :=
  stepOp (bondMatrix p) (fun i => p.U (orbitalOf p i)) p.dt fun i => p.phonon.g (orbitalOf p i) * y i

/-- energy of the phonons along a path, periodic in time: `ω² x² / 2 + v² / 2` at every site and slice -/
noncomputable def phononAction (p : SimParams ℝ) {L : ℕ} (x : Paths L (sites p)) : ℝ :=
  ∑ i, ∑ l ∈ Finset.range L, (p.phonon.omega (orbitalOf p i) ^ 2 * extendX x l i ^ 2 / 2
    + ((extendX x ((l + 1) % L) i - extendX x l i) / p.dt) ^ 2 / 2)

/-- the path integral of the Hubbard-Holstein model: `X` at slice `l`, `Y` at slice 0, `F` a function of the path.  The
coordinates which couple to the electrons are integrated with respect to the Lebesgue measure, the other ones with respect
to `rest`. -/
noncomputable def holsteinIntegral (p : SimParams ℝ) (rest : Measure ℝ) (L l : ℕ) (F : Paths L (sites p) → ℝ)
    (X Y : Op (Mode (sites p))) : ℝ :=
  ∫ x, (oprod (fun j => holsteinStep p (extendX x (l + j))) (L - l) * X * oprod (fun j => holsteinStep p (extendX x j)) l
      * Y).trace * F x * Real.exp (-p.dt * phononAction p x)
    ∂Measure.pi fun _ : Fin L => Measure.pi fun i : Fin (sites p) => if p.phonon.g (orbitalOf p i) = 0 then rest else volume

/-- expectation value in the Hubbard-Holstein model -/
noncomputable def holsteinMean (p : SimParams ℝ) (rest : Measure ℝ) (L l : ℕ) (F : Paths L (sites p) → ℝ)
    (X Y : Op (Mode (sites p))) : ℝ :=
  holsteinIntegral p rest L l F X Y / holsteinIntegral p rest L 0 (fun _ => 1) 1 1

/-! ## Proofs -/

variable {σ : Type} [MeasurableSpace σ] {P : Measure σ} {mc : Machine} {p : SimParams ℝ} {rest : Measure ℝ}
  [SigmaFinite rest]

omit [MeasurableSpace σ] [SigmaFinite rest] in
theorem holsteinPair_eq {sys : Sys σ (sites p) MeasData} (ho : ∀ i, sys.orb i = i.val / (p.Nx.toNat * p.Ny.toNat)) (L l : ℕ)
    (F : Paths L (sites p) → ℝ) (X Y : Op (Mode (sites p))) :
    holsteinPair sys (phOf p) rest (bondMatrix p) (fun o => p.U o) L l F X Y = holsteinMean p rest L l F X Y := by
  have ho' : ∀ i, sys.orb i = orbitalOf p i := ho
  have key : ∀ (l : ℕ) (F : Paths L (sites p) → ℝ) (X Y : Op (Mode (sites p))),
      holstein sys (phOf p) rest (bondMatrix p) (fun o => p.U o) L l F X Y = holsteinIntegral p rest L l F X Y := by
    intro l F X Y
    unfold holstein holsteinIntegral electronTrace stepAt holsteinStep pathBase siteBase Sys.energy pathEnergy phononAction
    simp only [ho']
    rfl
  unfold holsteinPair holsteinMean holsteinZ
  rw [key, key]

omit [MeasurableSpace σ] [SigmaFinite rest] in
/-- enough for the path integral to make sense: every coupled oscillator has a frequency, every field has a configuration
of nonzero weight -/
theorem program_sound (hdt : 0 < p.dt) {sys : Sys σ (sites p) MeasData} (hrest : Light rest)
    (ho : ∀ i, sys.orb i = i.val / (p.Nx.toNat * p.Ny.toNat)) (hL : 0 < p.L)
    (hg : ∀ o : ℕ, o < p.Norb.toNat → p.phonon.g o ≠ 0) (hom : ∀ o : ℕ, o < p.Norb.toNat → p.phonon.omega o ≠ 0) :
    Sound sys (phOf p) rest p.L.toNat := by
  have hlt : ∀ i, sys.orb i < p.Norb.toNat := fun i => by
    rw [ho]
    have h1 := i.2
    unfold sites at h1
    refine Nat.div_lt_of_lt_mul ?_
    calc i.val < _ := h1
      _ = _ := by ring
  refine ⟨hdt, fun i _ => hom _ (hlt i), hrest, fun s => ?_⟩
  obtain ⟨X, hX⟩ := weight_exists (sys := sys) (ph := phOf p) (L := p.L.toNat) (by omega) hdt.ne' (fun i => hg _ (hlt i))
    (Fock.extend s)
  refine ⟨pathsOf p.L.toNat X, ?_⟩
  have e := confWeight_view (sys := sys) (ph := phOf p) (L := p.L.toNat) (by omega) (Fock.extend s) X
  rw [fieldOf_extend] at e
  rw [e]
  exact mul_ne_zero hX (Real.exp_pos _).ne'

/-- C78 for accepted parameters within the guards, with phonons which couple to the electrons and at least two slices: if
the generator is replaced by an ideal source and the initial configuration is distributed according to the weights, then
with probability one the run is defined, and the quotients of the expected values of the entries of the arrays and of the
sums of the signs are the expectation values in the Hubbard-Holstein model -/
theorem program_expected_ph [NeZero (sites p)] (hmc : mc.Rounds) (hv : Admissible p) (hg : Guards p)
    (hN : sites p < 2 ^ 31) (hp : p.usePhonons = true) (hL : 2 ≤ p.L) (hdt : 0 < p.dt)
    (hcoupled : ∀ o : ℕ, o < p.Norb.toNat → p.phonon.g o ≠ 0) (homega : ∀ o : ℕ, o < p.Norb.toNat → p.phonon.omega o ≠ 0)
    (hrest : Light rest) (fnbase : String) (rng : Rng σ) (hlaw : rng.Lawful (sites p)) (hP : rng.Ideal (sites p) P)
    (sys : Sys Seed (sites p) MeasData) (hsys : sysOf mc p = some sys) (stop : ℤ → Bool) (it : ℤ) (cnt : Counters) :
    let L := p.L.toNat
    let cfg := (mkSetup mc p fnbase).cfg
    let sys' := sys.withRng rng
    let E := fun f => expectedPh sys' (phOf p) rest L P f
    ∃ R : Conf L (sites p) × σ → LoopResult (State σ (sites p) MeasData),
      (∀ᵐ y ∂(confDist sys' (phOf p) rest L).prod P, simulate sys' (phOf p) cfg stop it y.2 (Fock.extend y.1.1)
        (extendX y.1.2) (sys'.expOf (phOf p) (extendX y.1.2)) cnt (MeasData.allocate (mkSetup mc p fnbase).maxNsampl)
          = some (R y)) ∧
      (0 < eqCount cfg stop it →
        (EqThermal p.Nx.toNat p.Ny.toNat p.Norb.toNat p.pbcShift 0 (fun X => holsteinMean p rest L 0 (fun _ => 1) X 1)
          fun f z => E (fun y => (R y).state.meas.eq.arr f z) / E (fun y => (R y).state.meas.eq.sign)) ∧
        ∀ f ∈ phFields, ∀ o < p.Norb.toNat,
          E (fun y => (R y).state.meas.ph.arr f o) / E (fun y => (R y).state.meas.ph.sign)
            = phValue p.Norb.toNat (p.Nx.toNat * p.Ny.toNat) L p.dt (fun o => p.phonon.omega o)
              (fun F X => holsteinMean p rest L 0 F X 1) o f) ∧
      (0 < uneqCount cfg stop it →
        UneqThermal p.Nx.toNat p.Ny.toNat p.Norb.toNat L p.pbcShift 0 (p.Nx.toNat = 1 ↔ p.Ny.toNat = 1)
          (fun l X Y => holsteinMean p rest L l (fun _ => 1) X Y)
          fun f z => E (fun y => (R y).state.meas.uneq.arr f z) / E (fun y => (R y).state.meas.uneq.sign)) := by
  intro L cfg sys' E
  have h1 := hv.norb
  have h2 := hv.nx
  have h3 := hv.ny
  obtain ⟨sys0, e0, hok0, -, hm⟩ := sys_defined hmc hv hg.U hg.shift hN fnbase
  obtain rfl : sys0 = sys := Option.some.inj (e0.symm.trans hsys)
  have hok : sys'.Ok cfg.prodBlen := ⟨hok0.expK, hok0.hs, hlaw, hok0.dvd⟩
  have hL' : 2 ≤ cfg.L := by show 2 ≤ p.L.toNat; omega
  have hd : cfg.prodBlen ∣ cfg.L := toNat_dvd hv.prodBlen hv.l hv.dvdL
  have hP' : sys'.rng.Ideal (sites p) P := hP
  have hQ : Budget sys' cfg.L Room := room_budget hv hg hm
  have hq : Room (samples cfg it) (MeasData.allocate (mkSetup mc p fnbase).maxNsampl) :=
    room_start hv (hg.neqlt hp) fnbase it _ rfl
  have hdef := simulate_almost_surely_defined (ph := phOf p) (rest := rest) hP' hok hL' hd hp hQ
      (fun hn st n hst hm' => room_uneq (sys := sys') hv hg hn rfl rfl hm st n hst hm') stop it cnt _ hq
  obtain ⟨ho, hdes⟩ := program_describes hv hg sys0 hsys
  have ho' : ∀ i, sys'.orb i = i.val / (p.Nx.toNat * p.Ny.toNat) := ho
  have hD : Describes sys' p.Norb.toNat (bondMatrix p) (fun o => p.U o) (phOf p).dt :=
    ⟨hdes.nonneg, hdes.orb, hdes.hs, hdes.expK⟩
  have hS : Sound sys' (phOf p) rest cfg.L := program_sound hdt hrest ho' (by omega) hcoupled homega
  have hNN : sites p = p.Nx.toNat * p.Ny.toNat * p.Norb.toNat := by unfold sites; ring
  -- the result of a run, and anything for runs which are not defined
  have hdef' : ∀ y : Conf L (sites p) × σ, ∃ R, (∃ r, simulate sys' (phOf p) cfg stop it y.2 (Fock.extend y.1.1)
      (extendX y.1.2) (sys'.expOf (phOf p) (extendX y.1.2)) cnt (MeasData.allocate (mkSetup mc p fnbase).maxNsampl) = some r) →
      simulate sys' (phOf p) cfg stop it y.2 (Fock.extend y.1.1) (extendX y.1.2) (sys'.expOf (phOf p) (extendX y.1.2)) cnt
        (MeasData.allocate (mkSetup mc p fnbase).maxNsampl) = some R := by
    intro y
    by_cases h : ∃ r, simulate sys' (phOf p) cfg stop it y.2 (Fock.extend y.1.1) (extendX y.1.2)
        (sys'.expOf (phOf p) (extendX y.1.2)) cnt (MeasData.allocate (mkSetup mc p fnbase).maxNsampl) = some r
    · exact ⟨h.choose, fun _ => h.choose_spec⟩
    · exact ⟨⟨it, ⟨y.2, Fock.extend y.1.1, extendX y.1.2, extendX y.1.2, ⟨fun _ => 0, fun _ => 0, fun _ => 0, 0, 0, 0⟩,
        ⟨fun _ => 0, fun _ => 0, fun _ => 0, 0, 0, 0⟩, ⟨0, 0, 0⟩, ⟨0, 0, 0⟩, cnt, MeasData.allocate 0⟩,
        ⟨.init, 0, 0, 0⟩, false⟩, fun h' => absurd h' h⟩
  choose R hR using hdef'
  have hR' : ∀ᵐ y ∂(confDist sys' (phOf p) rest cfg.L).prod P, simulate sys' (phOf p) cfg stop it y.2
      (Fock.extend y.1.1) (extendX y.1.2) (sys'.expOf (phOf p) (extendX y.1.2)) cnt
      (MeasData.allocate (mkSetup mc p fnbase).maxNsampl) = some (R y) := by
    filter_upwards [hdef] with y hy
    exact hR y hy
  have hH := fun l F X Y => holsteinPair_eq (rest := rest) ho' cfg.L l F X Y
  refine ⟨R, hR', fun hc => ?_, fun hc => ?_⟩
  · have h := expected_equal_times_ph hP' hok hL' hd hp (by omega) (by omega) hNN hg.shift hm hD hS stop it hc cnt _ rfl
      ⟨_, rfl⟩ R hR'
    simp only [hH] at h
    exact h
  · have h := expected_unequal_times_ph hP' hok hL' hd hp (by omega) (by omega) hNN hg.shift hm hD hS stop it hc cnt _ rfl
      R hR'
    simp only [hH] at h
    exact h

/-- the small system with phonons, two time slices and unequal time measurements -/
noncomputable def exW : SimParams ℝ := { exQ with nuneqlt := 1 }

theorem exW_admissible : Admissible exW := by
  constructor <;> first | (intros; rfl) | (intros; left; rfl) | (unfold exW exQ exPph exP; norm_num; done) |
    exact exPph_admissible.itime

theorem exW_guards : Guards exW := by
  refine ⟨fun o _ => ?_, le_refl 0, fun _ => ?_, fun h => ?_⟩
  · norm_num [exW, exQ, exPph, exP]
  · norm_num [exW, exQ, exPph, exP]
  · norm_num [exW, exQ, exPph, exP]

instance : NeZero (sites exW) := ⟨by decide⟩

/-- non-vacuity: it satisfies all hypotheses and measures at equal and unequal times -/
example : ∃ mc : Machine, ∃ sys : Sys Seed (sites exW) MeasData, mc.Rounds ∧ Admissible exW ∧ Guards exW ∧
    exW.usePhonons = true ∧ 2 ≤ exW.L ∧ 0 < exW.dt ∧ (∀ o : ℕ, o < exW.Norb.toNat → exW.phonon.g o ≠ 0) ∧
    (∀ o : ℕ, o < exW.Norb.toNat → exW.phonon.omega o ≠ 0) ∧ Light (Measure.dirac 0) ∧ sysOf mc exW = some sys ∧
    (idealRng (sites exW)).Lawful (sites exW) ∧
    (idealRng (sites exW)).Ideal (sites exW) (independent (drawDist (sites exW))) ∧
    0 < eqCount (mkSetup mc exW "").cfg (fun _ => false) 0 ∧
    0 < uneqCount (mkSetup mc exW "").cfg (fun _ => false) 0 := by
  obtain ⟨mc, hmc⟩ := machine_exists
  obtain ⟨sys, hsys, -⟩ := sys_defined hmc exW_admissible exW_guards.U exW_guards.shift (by decide) ""
  refine ⟨mc, sys, hmc, exW_admissible, exW_guards, rfl, le_refl _, by norm_num [exW, exQ, exPph, exP],
    fun _ _ => by norm_num [exW, exQ, exPph, exP], fun _ _ => by norm_num [exW, exQ, exPph, exP], Light.dirac 0, hsys,
    idealRng_lawful _, idealRng_ideal _, ?_, ?_⟩
  · show 0 < eqCount ⟨2, 1, true, _, _, _, _, _⟩ _ _
    decide
  · show 0 < uneqCount ⟨2, 1, true, _, _, _, _, _⟩ _ _
    decide

end Verif.MonteCarlo
