import Verif.Props.LongRunsPh
import Verif.Props.ResponsivePh
import Verif.Props.ExpectedPhProgram
import Verif.Props.ConvergenceProgram
import Verif.Props.PositiveZ

/-! # Properties C105, C106 for the parameters of a run -/

set_option autoImplicit false

namespace Verif.MonteCarlo

open MeasureTheory Filter Verif.Fock Verif.Measurement Verif.Main Verif.Progress Verif.Random Verif.Params

variable {σ : Type} {mc : Machine} {p : SimParams ℝ}

/-! ## The partition function -/

theorem holsteinZ_eq {sys : Sys σ (sites p) MeasData} {rest : Measure ℝ}
    (ho : ∀ i, sys.orb i = i.val / (p.Nx.toNat * p.Ny.toNat)) (L : ℕ) :
    holsteinZ sys (phOf p) rest (bondMatrix p) (fun o => p.U o) L = holsteinIntegral p rest L 0 (fun _ => 1) 1 1 := by
  have ho' : ∀ i, sys.orb i = orbitalOf p i := ho
  unfold holsteinZ holstein holsteinIntegral electronTrace stepAt holsteinStep pathBase siteBase Sys.energy pathEnergy
    phononAction
  simp only [ho']
  rfl

theorem orbital_lt (i : Fin (sites p)) : i.val / (p.Nx.toNat * p.Ny.toNat) < p.Norb.toNat := by
  have h1 := i.2
  unfold sites at h1
  refine Nat.div_lt_of_lt_mul ?_
  calc i.val < _ := h1
    _ = _ := by ring

/-- C106: for accepted parameters within the guards the partition function of the Hubbard-Holstein model is positive, so that the expectation values are not quotients by zero -/
theorem program_partition_positive (hv : Admissible p) (hg : Guards p) (hN : sites p < 2 ^ 31) (hdt : 0 < p.dt)
    (homega : ∀ o : ℕ, o < p.Norb.toNat → p.phonon.g o ≠ 0 → p.phonon.omega o ≠ 0) {rest : Measure ℝ} [SigmaFinite rest]
    (hr : Light rest) (h0 : rest ≠ 0) :
    0 < holsteinIntegral p rest p.L.toNat 0 (fun _ => 1) 1 1 := by
  have h4 := hv.l
  obtain ⟨mc, hmc⟩ := machine_exists
  obtain ⟨sys, hsys, -⟩ := sys_defined hmc hv hg.U hg.shift hN ""
  obtain ⟨ho, -⟩ := program_describes hv hg sys hsys
  rw [← holsteinZ_eq ho]
  exact partition_positive hr h0 hdt (fun i => homega _ (by rw [ho]; exact orbital_lt i)) (bondMatrix_symm p) (by omega)

/-- non-vacuity: the small system with phonons and two time slices satisfies all hypotheses -/
example : Admissible exW ∧ Guards exW ∧ sites exW < 2 ^ 31 ∧ 0 < exW.dt ∧
    (∀ o : ℕ, o < exW.Norb.toNat → exW.phonon.g o ≠ 0 → exW.phonon.omega o ≠ 0) ∧ Light (Measure.dirac 0) ∧
    (Measure.dirac (0 : ℝ)) ≠ 0 :=
  ⟨exW_admissible, exW_guards, by decide, by norm_num [exW, exQ, exPph, exP],
    fun _ _ _ => by norm_num [exW, exQ, exPph, exP], Light.dirac 0, Measure.dirac_ne_zero⟩

/-! ## Long runs -/

/-- what long runs with phonons need besides accepted parameters within the guards: at least two slices, an even
number of them unless there is no repulsion, coupled oscillators with a frequency in all orbitals, and proposed updates of
the phonon field -/
structure Movable (p : SimParams ℝ) : Prop where
  phonons : p.usePhonons = true
  slices : 2 ≤ p.L
  even : Even p.L ∨ ∀ o : ℕ, o < p.Norb.toNat → p.U o = 0
  dt : 0 < p.dt
  coupled : ∀ o : ℕ, o < p.Norb.toNat → p.phonon.g o ≠ 0
  omega : ∀ o : ℕ, o < p.Norb.toNat → p.phonon.omega o ≠ 0
  box : p.phonon.localBoxWidth ≠ 0
  count : 0 < p.phonon.nLocalUpdates
  nequil : 0 ≤ p.nequil

theorem program_mobile (hmv : Movable p) (hv : Admissible p) {sys : Sys σ (sites p) MeasData}
    (ho : ∀ i, sys.orb i = i.val / (p.Nx.toNat * p.Ny.toNat))
    (hD : Describes sys p.Norb.toNat (bondMatrix p) (fun o => p.U o) (phOf p).dt) (fnbase : String) :
    Mobile sys (phOf p) (Measure.dirac 0) p.L.toNat (mkSetup mc p fnbase).cfg.noHS := by
  have h4 := hv.l
  have hL : 0 < p.L.toNat := by omega
  have hlt : ∀ i, sys.orb i < p.Norb.toNat := fun i => by rw [ho]; exact orbital_lt i
  have hgo : ∀ i, (phOf p).g (sys.orb i) ≠ 0 := fun i => hmv.coupled _ (hlt i)
  have hS : Sound sys (phOf p) (Measure.dirac 0) p.L.toNat :=
    program_sound hmv.dt (Light.dirac 0) ho (by omega) hmv.coupled hmv.omega
  have hdec : (∀ o : ℕ, o < p.Norb.toNat → p.U o = 0) → ∀ i, Decoupled sys i := fun h i => decoupled_of_zero hD (h _ (hlt i))
  have hresp : ResponsivePh sys (phOf p) (Measure.dirac 0) p.L.toNat := by
    rcases hmv.even with ⟨m, he⟩ | he
    · refine responsive_even ⟨m.toNat, by omega⟩ hL hmv.dt.ne' hgo
        (fun i => Stratonovich.fill_consistent _ _ _ _ hD.hs _ (hD.orb i)) fun i => ?_
      rw [hD.expK]
      exact (exp_posDef ((bondMatrix_symm p).smul _)).diag_pos.ne'
    · exact fun i => Or.inl (hdec he i)
  refine ⟨hresp, fun h i => decoupled_of_zero hD ?_, hmv.box, ?_, hgo, ?_⟩
  · exact of_decide_eq_true (List.all_eq_true.1 h _ (List.mem_range.2 (hlt i)))
  · have := hmv.count
    show 0 < p.phonon.nLocalUpdates.toNat
    omega
  · filter_upwards [confWeight_base_ae (sys := sys) (ph := phOf p) (rest := Measure.dirac 0) hS.weight] with x hx
    exact lt_of_le_of_ne (confWeight_nonneg x) (Ne.symm hx)

variable [MeasurableSpace σ] {P : Measure σ}

/-- C105 for accepted parameters within the guards: let the generator be replaced by an ideal source, and let the initial
configuration be random in such a way that sets of configurations without weight have probability zero. With probability
one the runs are defined, and the quotients of the arrays and of the sums of the signs converge in probability to the
expectation values in the Hubbard-Holstein model, as the number `nsampl` of iterations grows. -/
theorem program_converges_ph [NeZero (sites p)] (hmc : mc.Rounds) (hv : Admissible p) (hg : Guards p)
    (hN : sites p < 2 ^ 31) (hmv : Movable p) (fnbase : String) (rng : Rng σ) (hlaw : rng.Lawful (sites p))
    (hP : rng.Ideal (sites p) P) (sys : Sys Seed (sites p) MeasData) (hsys : sysOf mc p = some sys) (cnt : Counters)
    {Ω : Type} [MeasurableSpace Ω] {ν : Measure Ω} [IsFiniteMeasure ν] {ρ : Ω → Conf p.L.toNat (sites p) × σ}
    {s : Ω → ℕ → Fin (sites p) → Fin 2} {X expX : Ω → ℕ → Fin (sites p) → ℝ}
    (hst : Start (sys.withRng rng) (phOf p) (Measure.dirac 0) p.L.toNat P ν ρ s X expX) :
    let L := p.L.toNat
    let su := fun n : ℕ => mkSetup mc { p with nsampl := n } fnbase
    ∃ R : ℕ → Ω → LoopResult (State σ (sites p) MeasData),
      (∀ n : ℕ, ∀ᵐ ω ∂ν, simulate (sys.withRng rng) (su n).ph (su n).cfg (fun _ => false) 0 (ρ ω).2 (s ω) (X ω) (expX ω)
        cnt (MeasData.allocate (su n).maxNsampl) = some (R n ω)) ∧
      (0 < p.neqlt → p.neqlt ≤ p.L →
        (EqHolds p.Nx.toNat p.Ny.toNat p.Norb.toNat p.pbcShift 0
          (fun X => holsteinMean p (Measure.dirac 0) L 0 (fun _ => 1) X 1) fun f z v =>
          TendstoInMeasure ν (fun n ω => (R n ω).state.meas.eq.arr f z / (R n ω).state.meas.eq.sign) atTop fun _ => v) ∧
        ∀ f ∈ phFields, ∀ o < p.Norb.toNat,
          TendstoInMeasure ν (fun n ω => (R n ω).state.meas.ph.arr f o / (R n ω).state.meas.ph.sign) atTop fun _ =>
            phValue p.Norb.toNat (p.Nx.toNat * p.Ny.toNat) L p.dt (fun o => p.phonon.omega o)
              (fun F X => holsteinMean p (Measure.dirac 0) L 0 F X 1) o f) ∧
      (0 < p.nuneqlt →
        UneqHolds p.Nx.toNat p.Ny.toNat p.Norb.toNat L p.pbcShift 0 (p.Nx.toNat = 1 ↔ p.Ny.toNat = 1)
          (fun l X Y => holsteinMean p (Measure.dirac 0) L l (fun _ => 1) X Y) fun f z v =>
          TendstoInMeasure ν (fun n ω => (R n ω).state.meas.uneq.arr f z / (R n ω).state.meas.uneq.sign) atTop fun _ => v) := by
  intro L su
  have h1 := hv.norb
  have h2 := hv.nx
  have h3 := hv.ny
  have h4 := hv.l
  have hm2 := hmv.slices
  obtain ⟨sys0, e0, hok0, -, hm⟩ := sys_defined hmc hv hg.U hg.shift hN fnbase
  obtain rfl : sys0 = sys := Option.some.inj (e0.symm.trans hsys)
  set sys' := sys0.withRng rng with hs'
  set cfg := (mkSetup mc p fnbase).cfg with hcfg
  have hok : sys'.Ok cfg.prodBlen := ⟨hok0.expK, hok0.hs, hlaw, hok0.dvd⟩
  have hL' : 2 ≤ cfg.L := by show 2 ≤ p.L.toNat; omega
  have hd : cfg.prodBlen ∣ cfg.L := toNat_dvd hv.prodBlen hv.l hv.dvdL
  have hP' : sys'.rng.Ideal (sites p) P := hP
  have hQ : Budget sys' cfg.L Room := room_budget hv hg hm
  obtain ⟨ho, hdes⟩ := program_describes hv hg sys0 hsys
  have ho' : ∀ i, sys'.orb i = i.val / (p.Nx.toNat * p.Ny.toNat) := ho
  have hD : Describes sys' p.Norb.toNat (bondMatrix p) (fun o => p.U o) (phOf p).dt :=
    ⟨hdes.nonneg, hdes.orb, hdes.hs, hdes.expK⟩
  have hS : Sound sys' (phOf p) (Measure.dirac 0) cfg.L :=
    program_sound hmv.dt (Light.dirac 0) ho' (by omega) hmv.coupled hmv.omega
  have hmob : Mobile sys' (phOf p) (Measure.dirac 0) cfg.L cfg.noHS := program_mobile hmv hv ho' hD fnbase
  have hNN : sites p = p.Nx.toNat * p.Ny.toNat * p.Norb.toNat := by unfold sites; ring
  have hZ : holsteinZ sys' (phOf p) (Measure.dirac 0) (bondMatrix p) (fun o => p.U o) cfg.L ≠ 0 :=
    (partition_positive (Light.dirac 0) Measure.dirac_ne_zero hS.dt hS.omega (bondMatrix_symm p) (by omega)).ne'
  -- the runs
  have hdef : ∀ n : ℕ, ∀ᵐ ω ∂ν, ∃ res, simulate sys' (su n).ph (su n).cfg (fun _ => false) 0 (ρ ω).2 (s ω) (X ω) (expX ω)
      cnt (MeasData.allocate (su n).maxNsampl) = some res := by
    intro n
    have hv' : Admissible { p with nsampl := (n : ℤ) } :=
      ⟨hv.norb, hv.nx, hv.ny, hv.noSelf, hv.noDouble, hv.l, hv.prodBlen, hv.dvdL, hv.dvdNwraps, hv.nwraps, hv.itime⟩
    have hq : Room (samples (su n).cfg 0) (MeasData.allocate (su n).maxNsampl) :=
      room_start (p := { p with nsampl := (n : ℤ) }) hv' (hg.neqlt hmv.phonons) fnbase 0 _ rfl
    obtain ⟨G, -, h⟩ := simulate_ae (ph := phOf p) (rest := Measure.dirac 0) (cfg := (su n).cfg) hP' hok hL' hd hmv.phonons hQ
      (fun hn st k hst hm' => room_uneq (sys := sys') hv hg hn rfl rfl hm st k hst hm') (fun _ => false) 0 cnt _ hq
    filter_upwards [hst.quasi.ae h] with ω hω
    obtain ⟨res, e, -⟩ := hω _ _ _ (hst.field ω) (hst.paths ω) (hst.exps ω)
    exact ⟨res, e⟩
  have hdef' : ∀ (n : ℕ) (ω : Ω), ∃ R, (∃ r, simulate sys' (su n).ph (su n).cfg (fun _ => false) 0 (ρ ω).2 (s ω) (X ω)
      (expX ω) cnt (MeasData.allocate (su n).maxNsampl) = some r) → simulate sys' (su n).ph (su n).cfg (fun _ => false) 0
      (ρ ω).2 (s ω) (X ω) (expX ω) cnt (MeasData.allocate (su n).maxNsampl) = some R := by
    intro n ω
    by_cases h : ∃ r, simulate sys' (su n).ph (su n).cfg (fun _ => false) 0 (ρ ω).2 (s ω) (X ω) (expX ω) cnt
        (MeasData.allocate (su n).maxNsampl) = some r
    · exact ⟨h.choose, fun _ => h.choose_spec⟩
    · exact ⟨⟨0, ⟨(ρ ω).2, s ω, X ω, expX ω, ⟨fun _ => 0, fun _ => 0, fun _ => 0, 0, 0, 0⟩,
        ⟨fun _ => 0, fun _ => 0, fun _ => 0, 0, 0, 0⟩, ⟨0, 0, 0⟩, ⟨0, 0, 0⟩, cnt, MeasData.allocate 0⟩,
        ⟨.init, 0, 0, 0⟩, false⟩, fun h' => absurd h' h⟩
  choose R hR using hdef'
  have hR' : ∀ n : ℕ, ∀ᵐ ω ∂ν, simulate sys' (su n).ph (su n).cfg (fun _ => false) 0 (ρ ω).2 (s ω) (X ω) (expX ω) cnt
      (MeasData.allocate (su n).maxNsampl) = some (R n ω) := by
    intro n
    filter_upwards [hdef n] with ω hω
    exact hR n ω hω
  have hH := fun l F X Y => holsteinPair_eq (rest := Measure.dirac 0) ho' cfg.L l F X Y
  refine ⟨R, hR', fun hc hcL => ?_, fun hc => ?_⟩
  · have h := equal_times_converge_ph (cfg := cfg) hP' hok hL' hd hmv.phonons hmv.nequil hmob (by omega) (by omega) hNN
      hg.shift hm hD hS hZ hc (by show p.neqlt ≤ (p.L.toNat : ℤ); omega) cnt
      (fun n => MeasData.allocate (su n).maxNsampl) (fun _ => rfl) (fun _ => ⟨_, rfl⟩) hst R hR'
    simp only [hH] at h
    exact h
  · have h := unequal_times_converge_ph (cfg := cfg) hP' hok hL' hd hmv.phonons hmv.nequil hmob (by omega) (by omega) hNN
      hg.shift hm hD hS hZ hc cnt (fun n => MeasData.allocate (su n).maxNsampl) (fun _ => rfl) hst R hR'
    simp only [hH] at h
    exact h

/-- C105 for runs from scratch: `main` draws the initial field and phonon field from the source -/
theorem program_fresh_converges_ph [NeZero (sites p)] (hmc : mc.Rounds) (hv : Admissible p) (hg : Guards p)
    (hN : sites p < 2 ^ 31) (hmv : Movable p) (fnbase : String) (rng : Rng σ) (hlaw : rng.Lawful (sites p))
    (hP : rng.Ideal (sites p) P) (sys : Sys Seed (sites p) MeasData) (hsys : sysOf mc p = some sys) :
    let L := p.L.toNat
    let su := fun n : ℕ => mkSetup mc { p with nsampl := n } fnbase
    ∃ R : ℕ → σ → LoopResult (State σ (sites p) MeasData),
      (∀ n : ℕ, ∀ᵐ r ∂P,
        let f := drawField rng (su n).LxN r
        let x := drawPhonons rng (su n).ph (su n).Ncell (sites p) (su n).cfg.L f.2
        simulate (sys.withRng rng) (su n).ph (su n).cfg (fun _ => false) 0 x.2 (unflat f.1) (unflat x.1)
          (expPhonons (su n).ph (su n).Ncell (su n).cfg.L (unflat x.1)) zeroCounters (MeasData.allocate (su n).maxNsampl)
            = some (R n r)) ∧
      (0 < p.neqlt → p.neqlt ≤ p.L →
        (EqHolds p.Nx.toNat p.Ny.toNat p.Norb.toNat p.pbcShift 0
          (fun X => holsteinMean p (Measure.dirac 0) L 0 (fun _ => 1) X 1) fun f z v =>
          TendstoInMeasure P (fun n r => (R n r).state.meas.eq.arr f z / (R n r).state.meas.eq.sign) atTop fun _ => v) ∧
        ∀ f ∈ phFields, ∀ o < p.Norb.toNat,
          TendstoInMeasure P (fun n r => (R n r).state.meas.ph.arr f o / (R n r).state.meas.ph.sign) atTop fun _ =>
            phValue p.Norb.toNat (p.Nx.toNat * p.Ny.toNat) L p.dt (fun o => p.phonon.omega o)
              (fun F X => holsteinMean p (Measure.dirac 0) L 0 F X 1) o f) ∧
      (0 < p.nuneqlt →
        UneqHolds p.Nx.toNat p.Ny.toNat p.Norb.toNat L p.pbcShift 0 (p.Nx.toNat = 1 ↔ p.Ny.toNat = 1)
          (fun l X Y => holsteinMean p (Measure.dirac 0) L l (fun _ => 1) X Y) fun f z v =>
          TendstoInMeasure P (fun n r => (R n r).state.meas.uneq.arr f z / (R n r).state.meas.uneq.sign) atTop fun _ => v) := by
  intro L su
  have := hP.prob
  have h4 := hv.l
  have hm2 := hmv.slices
  have hncell : sys.Ncell = p.Nx.toNat * p.Ny.toNat := by
    unfold sysOf at hsys
    simp only [Option.bind_eq_bind] at hsys
    obtain ⟨a, -, hsys⟩ := Option.bind_eq_some_iff.1 hsys
    obtain ⟨b, -, hsys⟩ := Option.bind_eq_some_iff.1 hsys
    obtain rfl := Option.some.inj hsys
    rfl
  obtain ⟨ho, -⟩ := program_describes hv hg sys hsys
  have ho' : ∀ i, (sys.withRng rng).orb i = i.val / (p.Nx.toNat * p.Ny.toNat) := ho
  have hS : Sound (sys.withRng rng) (phOf p) (Measure.dirac 0) L :=
    program_sound hmv.dt (Light.dirac 0) ho' (by omega) hmv.coupled hmv.omega
  have hP' : (sys.withRng rng).rng.Ideal (sites p) P := hP
  have hac := (confBase_ac (rest := Measure.dirac 0) hS.weight).prod (Measure.AbsolutelyContinuous.refl P)
  have hst : Start (sys.withRng rng) (phOf p) (Measure.dirac 0) L P P (fresh (sys.withRng rng) (phOf p) L)
      (fun r => unflat (drawField rng (L * sites p) r).1)
      (fun r => unflat (drawPhonons rng (phOf p) sys.Ncell (sites p) L (drawField rng (L * sites p) r).2).1)
      (fun r => expPhonons (phOf p) sys.Ncell L
        (unflat (drawPhonons rng (phOf p) sys.Ncell (sites p) L (drawField rng (L * sites p) r).2).1)) :=
    ⟨(fresh_quasi hP' fun _ _ => hmv.box).mono_right hac, fun r => rfl, fun r => rfl, fun r l hl i => by
      unfold expPhonons
      rw [if_pos hl]
      rfl⟩
  obtain ⟨R, hR, hlim⟩ := program_converges_ph hmc hv hg hN hmv fnbase rng hlaw hP sys hsys zeroCounters hst
  refine ⟨R, fun n => ?_, hlim⟩
  have hnc : (su n).Ncell = sys.Ncell := hncell.symm
  filter_upwards [hR n] with r hr
  dsimp only
  rw [hnc]
  exact hr

/-- C105 for runs whose initial configuration is distributed according to the weights -/
theorem program_stationary_converges_ph [NeZero (sites p)] (hmc : mc.Rounds) (hv : Admissible p) (hg : Guards p)
    (hN : sites p < 2 ^ 31) (hmv : Movable p) (fnbase : String) (rng : Rng σ) (hlaw : rng.Lawful (sites p))
    (hP : rng.Ideal (sites p) P) (sys : Sys Seed (sites p) MeasData) (hsys : sysOf mc p = some sys) (cnt : Counters) :
    let L := p.L.toNat
    let su := fun n : ℕ => mkSetup mc { p with nsampl := n } fnbase
    let sys' := sys.withRng rng
    let ν := (confDist sys' (phOf p) (Measure.dirac 0) L).prod P
    ∃ R : ℕ → Conf L (sites p) × σ → LoopResult (State σ (sites p) MeasData),
      (∀ n : ℕ, ∀ᵐ y ∂ν, simulate sys' (su n).ph (su n).cfg (fun _ => false) 0 y.2 (Fock.extend y.1.1) (extendX y.1.2)
        (sys'.expOf (phOf p) (extendX y.1.2)) cnt (MeasData.allocate (su n).maxNsampl) = some (R n y)) ∧
      (0 < p.neqlt → p.neqlt ≤ p.L →
        (EqHolds p.Nx.toNat p.Ny.toNat p.Norb.toNat p.pbcShift 0
          (fun X => holsteinMean p (Measure.dirac 0) L 0 (fun _ => 1) X 1) fun f z v =>
          TendstoInMeasure ν (fun n y => (R n y).state.meas.eq.arr f z / (R n y).state.meas.eq.sign) atTop fun _ => v) ∧
        ∀ f ∈ phFields, ∀ o < p.Norb.toNat,
          TendstoInMeasure ν (fun n y => (R n y).state.meas.ph.arr f o / (R n y).state.meas.ph.sign) atTop fun _ =>
            phValue p.Norb.toNat (p.Nx.toNat * p.Ny.toNat) L p.dt (fun o => p.phonon.omega o)
              (fun F X => holsteinMean p (Measure.dirac 0) L 0 F X 1) o f) ∧
      (0 < p.nuneqlt →
        UneqHolds p.Nx.toNat p.Ny.toNat p.Norb.toNat L p.pbcShift 0 (p.Nx.toNat = 1 ↔ p.Ny.toNat = 1)
          (fun l X Y => holsteinMean p (Measure.dirac 0) L l (fun _ => 1) X Y) fun f z v =>
          TendstoInMeasure ν (fun n y => (R n y).state.meas.uneq.arr f z / (R n y).state.meas.uneq.sign) atTop fun _ => v) := by
  intro L su sys' ν
  have := hP.prob
  have h4 := hv.l
  have hm2 := hmv.slices
  obtain ⟨ho, hdes⟩ := program_describes hv hg sys hsys
  have hD : Describes sys' p.Norb.toNat (bondMatrix p) (fun o => p.U o) (phOf p).dt :=
    ⟨hdes.nonneg, hdes.orb, hdes.hs, hdes.expK⟩
  have hS : Sound sys' (phOf p) (Measure.dirac 0) L :=
    program_sound hmv.dt (Light.dirac 0) (show ∀ i, sys'.orb i = _ from ho) (by omega) hmv.coupled hmv.omega
  have hfin := confDist_finite hS hD
  exact program_converges_ph hmc hv hg hN hmv fnbase rng hlaw hP sys hsys cnt start_stationary

/-- non-vacuity: the small system with phonons and two time slices and an ideal source satisfies all hypotheses -/
example : ∃ mc : Machine, ∃ sys : Sys Seed (sites exW) MeasData, mc.Rounds ∧ Admissible exW ∧ Guards exW ∧
    sites exW < 2 ^ 31 ∧ Movable exW ∧ sysOf mc exW = some sys ∧ (idealRng (sites exW)).Lawful (sites exW) ∧
    (idealRng (sites exW)).Ideal (sites exW) (independent (drawDist (sites exW))) ∧ 0 < exW.neqlt ∧ exW.neqlt ≤ exW.L ∧
    0 < exW.nuneqlt := by
  obtain ⟨mc, hmc⟩ := machine_exists
  obtain ⟨sys, hsys, -⟩ := sys_defined hmc exW_admissible exW_guards.U exW_guards.shift (by decide) ""
  refine ⟨mc, sys, hmc, exW_admissible, exW_guards, by decide, ⟨rfl, by decide, Or.inl (by decide), ?_, fun _ _ => ?_, fun _ _ => ?_, ?_, ?_, ?_⟩,
    hsys, idealRng_lawful _, idealRng_ideal _, by decide, by decide, by decide⟩ <;> norm_num [exW, exQ, exPph, exP]

end Verif.MonteCarlo
