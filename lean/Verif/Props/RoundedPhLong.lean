import Verif.Props.RoundedPhProgram
import Verif.Props.LongRunsPhProgram

/-! # Property C124: long runs with phonons in rounded arithmetic -/

set_option autoImplicit false

namespace Verif.MonteCarlo

open MeasureTheory Filter Topology Matrix Verif.Lapack Verif.TimeFlow Verif.Fock Verif.Greens Verif.GreensUneq Verif.Measurement
open Verif.Main Verif.Progress Verif.Lattice Verif.MeanErgodic Verif.Random Verif.Params

/-! ## The sums of the signs -/

section signs

theorem nonzero_of_ratio {Ω : Type} [MeasurableSpace Ω] {ν : Measure Ω} {x : ℕ → Ω → ℝ}
    (h : TendstoInMeasure ν (fun n ω => x n ω / x n ω) atTop fun _ => 1) :
    Tendsto (fun n => ν {ω | x n ω = 0}) atTop (𝓝 0) := by
  rw [tendstoInMeasure_iff_dist] at h
  refine tendsto_of_tendsto_of_tendsto_of_le_of_le tendsto_const_nhds (h 1 one_pos) (fun _ => zero_le) fun n =>
    measure_mono fun ω hω => ?_
  have hω : x n ω = 0 := hω
  show (1 : ℝ) ≤ dist (x n ω / x n ω) 1
  rw [hω]
  simp

variable {σ : Type} {N : ℕ} [MeasurableSpace σ] {P : Measure σ} [NeZero N] {sys : Sys σ N MeasData} {ph : Phonon} {rest : Measure ℝ}
  [SigmaFinite rest] {cfg : Cfg}
  {Nx Ny Norb : ℕ} {shift : ℤ} {junk : ℤ → ℤ} {dt : ℝ} {omega : ℕ → ℝ}
  {alg : BlockCyclic.QRs N} {tau : BlockCyclic.Buf} {old : GreensUneq.Arrays} {K : Mat N} {U : ℕ → ℝ}
  {Ω : Type} [MeasurableSpace Ω] {ν : Measure Ω} [IsFiniteMeasure ν]

set_option maxHeartbeats 800000 in
/-- the sums of the signs of the equal time and phonon measurements vanish with a probability which tends to zero -/
theorem equal_signs_ph (hP : sys.rng.Ideal N P) (hok : sys.Ok cfg.prodBlen) (hL : 2 ≤ cfg.L)
    (hd : cfg.prodBlen ∣ cfg.L) (hp : cfg.usePhonons = true) (hnq : 0 ≤ cfg.nequil) (hmob : Mobile sys ph rest cfg.L cfg.noHS)
    (hx : 0 < Nx) (hy : 0 < Ny) (hN : N = Nx * Ny * Norb) (hs : 0 ≤ shift)
    (hm : sys.meas = realMeas Norb (Nx * Ny) cfg.L (Maps.construct Nx Ny shift junk) dt omega alg tau old)
    (hD : Describes sys Norb K U ph.dt) (hS : Sound sys ph rest cfg.L) (hZ : holsteinZ sys ph rest K U cfg.L ≠ 0)
    (h0 : 0 < cfg.neqlt) (h1 : cfg.neqlt ≤ cfg.L) (cnt : Counters) (meas : ℕ → MeasData)
    (hm0 : ∀ n, (meas n).eq = EqData.allocate) (hm1 : ∀ n, ∃ k, (meas n).ph = PhData.allocate k)
    {ρ : Ω → Conf cfg.L N × σ} {s : Ω → ℕ → Fin N → Fin 2} {X expX : Ω → ℕ → Fin N → ℝ}
    (hst : Start sys ph rest cfg.L P ν ρ s X expX) (R : ℕ → Ω → LoopResult (State σ N MeasData))
    (hR : ∀ n : ℕ, ∀ᵐ ω ∂ν, simulate sys ph { cfg with nsampl := n } (fun _ => false) 0 (ρ ω).2 (s ω) (X ω) (expX ω) cnt
      (meas n) = some (R n ω)) :
    Tendsto (fun n => ν {ω | (R n ω).state.meas.eq.sign = 0}) atTop (𝓝 0) ∧
    Tendsto (fun n => ν {ω | (R n ω).state.meas.ph.sign = 0}) atTop (𝓝 0) := by
  have hone : HasVal sys ph rest U cfg.L (fun _ => (1 : ℝ)) (holsteinZ sys ph rest K U cfg.L) :=
    HasVal.path hS hD (Tame.const 1)
  constructor
  · have h := ratio_eq_ph (φ := fun m => m.eq.sign) (ψ := fun m => m.eq.sign) hP hok hL hd hp hnq hmob hD hS hZ h0 h1 cnt meas
      hst R hR (fun n => by rw [hm0]; rfl) (fun n => by rw [hm0]; rfl) (O := fun _ _ => 1) (fun _ _ => hone) (fun _ _ _ _ => rfl)
      (fun s X l Gu Gd m m1 m2 hl he e1 e2 => by
        rw [mul_one]
        exact ⟨(measure_eq hx hy hN hs hm hl he e1 e2).2.1, (measure_eq hx hy hN hs hm hl he e1 e2).2.1⟩)
      fun st m' hi e => by
        rw [(measure_uneq hx hy hN hs hm hi e).1]
        exact ⟨rfl, rfl⟩
    rw [div_self hZ] at h
    exact nonzero_of_ratio h
  · have h := ratio_eq_ph (φ := fun m => m.ph.sign) (ψ := fun m => m.ph.sign) hP hok hL hd hp hnq hmob hD hS hZ h0 h1 cnt meas
      hst R hR (fun n => by obtain ⟨k, e⟩ := hm1 n; rw [e]; rfl) (fun n => by obtain ⟨k, e⟩ := hm1 n; rw [e]; rfl)
      (O := fun _ _ => 1) (fun _ _ => hone) (fun _ _ _ _ => rfl)
      (fun s X l Gu Gd m m1 m2 hl he e1 e2 => by
        rw [mul_one]
        exact ⟨(measure_eq hx hy hN hs hm hl he e1 e2).2.2.1, (measure_eq hx hy hN hs hm hl he e1 e2).2.2.1⟩)
      fun st m' hi e => by
        rw [(measure_uneq hx hy hN hs hm hi e).2.1]
        exact ⟨rfl, rfl⟩
    rw [div_self hZ] at h
    exact nonzero_of_ratio h

set_option maxHeartbeats 800000 in
/-- the sum of the signs of the unequal time measurements vanishes with a probability which tends to zero -/
theorem unequal_signs_ph (hP : sys.rng.Ideal N P) (hok : sys.Ok cfg.prodBlen) (hL : 2 ≤ cfg.L)
    (hd : cfg.prodBlen ∣ cfg.L) (hp : cfg.usePhonons = true) (hnq : 0 ≤ cfg.nequil) (hmob : Mobile sys ph rest cfg.L cfg.noHS)
    (hx : 0 < Nx) (hy : 0 < Ny) (hN : N = Nx * Ny * Norb) (hs : 0 ≤ shift)
    (hm : sys.meas = realMeas Norb (Nx * Ny) cfg.L (Maps.construct Nx Ny shift junk) dt omega alg tau old)
    (hD : Describes sys Norb K U ph.dt) (hS : Sound sys ph rest cfg.L) (hZ : holsteinZ sys ph rest K U cfg.L ≠ 0)
    (h0 : 0 < cfg.nuneqlt) (cnt : Counters) (meas : ℕ → MeasData) (hm0 : ∀ n, (meas n).uneq = UneqData.allocate)
    {ρ : Ω → Conf cfg.L N × σ} {s : Ω → ℕ → Fin N → Fin 2} {X expX : Ω → ℕ → Fin N → ℝ}
    (hst : Start sys ph rest cfg.L P ν ρ s X expX) (R : ℕ → Ω → LoopResult (State σ N MeasData))
    (hR : ∀ n : ℕ, ∀ᵐ ω ∂ν, simulate sys ph { cfg with nsampl := n } (fun _ => false) 0 (ρ ω).2 (s ω) (X ω) (expX ω) cnt
      (meas n) = some (R n ω)) :
    Tendsto (fun n => ν {ω | (R n ω).state.meas.uneq.sign = 0}) atTop (𝓝 0) := by
  have hone : HasVal sys ph rest U cfg.L (fun _ => (1 : ℝ)) (holsteinZ sys ph rest K U cfg.L) :=
    HasVal.path hS hD (Tame.const 1)
  have h := ratio_uneq_ph (φ := fun m => m.uneq.sign) (ψ := fun m => m.uneq.sign) hP hok hL hd hp hnq hmob hD hS hZ h0 cnt meas
    hst R hR (fun n => by rw [hm0]; rfl) (fun n => by rw [hm0]; rfl) (O := fun _ => 1) hone (fun _ _ => rfl)
    (fun s X l Gu Gd m m1 m2 hl he e1 e2 => by
      rw [(measure_eq hx hy hN hs hm hl he e1 e2).1]
      exact ⟨rfl, rfl⟩)
    fun st m' hi e => by
      rw [mul_one]
      exact ⟨(measure_uneq hx hy hN hs hm hi e).2.2.1, (measure_uneq hx hy hN hs hm hi e).2.2.1⟩
  rw [div_self hZ] at h
  exact nonzero_of_ratio h

end signs

variable {mc : Machine} {p : SimParams ℝ} {σ : Type} [MeasurableSpace σ] {P : Measure σ}

/-- C124, the denominators: in long runs with phonons the sums of the signs vanish with a probability which tends to zero -/
theorem program_signs_ph [NeZero (sites p)] (hmc : mc.Rounds) (hv : Admissible p) (hg : Guards p)
    (hN : sites p < 2 ^ 31) (hmv : Movable p) (fnbase : String) (rng : Rng σ) (hlaw : rng.Lawful (sites p))
    (hP : rng.Ideal (sites p) P) (sys : Sys Seed (sites p) MeasData) (hsys : sysOf mc p = some sys) (cnt : Counters)
    {Ω : Type} [MeasurableSpace Ω] {ν : Measure Ω} [IsFiniteMeasure ν] {ρ : Ω → Conf p.L.toNat (sites p) × σ}
    {s : Ω → ℕ → Fin (sites p) → Fin 2} {X expX : Ω → ℕ → Fin (sites p) → ℝ}
    (hst : Start (sys.withRng rng) (phOf p) (Measure.dirac 0) p.L.toNat P ν ρ s X expX)
    (R : ℕ → Ω → LoopResult (State σ (sites p) MeasData))
    (hR : ∀ n : ℕ, ∀ᵐ ω ∂ν, simulate (sys.withRng rng) (mkSetup mc { p with nsampl := n } fnbase).ph
      (mkSetup mc { p with nsampl := n } fnbase).cfg (fun _ => false) 0 (ρ ω).2 (s ω) (X ω) (expX ω) cnt
      (MeasData.allocate (mkSetup mc { p with nsampl := n } fnbase).maxNsampl) = some (R n ω)) :
    (0 < p.neqlt → p.neqlt ≤ p.L →
      Tendsto (fun n => ν {ω | (R n ω).state.meas.eq.sign = 0}) atTop (𝓝 0) ∧
      Tendsto (fun n => ν {ω | (R n ω).state.meas.ph.sign = 0}) atTop (𝓝 0)) ∧
    (0 < p.nuneqlt → Tendsto (fun n => ν {ω | (R n ω).state.meas.uneq.sign = 0}) atTop (𝓝 0)) := by
  have h1 := hv.norb
  have h2 := hv.nx
  have h3 := hv.ny
  have h4 := hv.l
  have hm2 := hmv.slices
  obtain ⟨sys0, e0, hok0, -, hm⟩ := sys_defined hmc hv hg.U hg.shift hN fnbase
  obtain rfl : sys0 = sys := Option.some.inj (e0.symm.trans hsys)
  set sys' := sys0.withRng rng with hs'
  set cfg := (mkSetup mc p fnbase).cfg with hcfg
  have hok : sys'.Ok cfg.prodBlen := ⟨hok0.expK, hok0.hs, hlaw, hok0.dvd⟩
  have hL' : 2 ≤ cfg.L := by show 2 ≤ p.L.toNat; omega
  have hd : cfg.prodBlen ∣ cfg.L := toNat_dvd hv.prodBlen hv.l hv.dvdL
  have hP' : sys'.rng.Ideal (sites p) P := hP
  obtain ⟨ho, hdes⟩ := program_describes hv hg sys0 hsys
  have ho' : ∀ i, sys'.orb i = i.val / (p.Nx.toNat * p.Ny.toNat) := ho
  have hD : Describes sys' p.Norb.toNat (bondMatrix p) (fun o => p.U o) (phOf p).dt :=
    ⟨hdes.nonneg, hdes.orb, hdes.hs, hdes.expK⟩
  have hS : Sound sys' (phOf p) (Measure.dirac 0) cfg.L :=
    program_sound hmv.dt (Light.dirac 0) ho' (by omega) hmv.coupled hmv.omega
  have hmob : Mobile sys' (phOf p) (Measure.dirac 0) cfg.L cfg.noHS := program_mobile hmv hv ho' hD fnbase
  have hNN : sites p = p.Nx.toNat * p.Ny.toNat * p.Norb.toNat := by unfold sites; ring
  have hZ : holsteinZ sys' (phOf p) (Measure.dirac 0) (bondMatrix p) (fun o => p.U o) cfg.L ≠ 0 :=
    (partition_positive (Light.dirac 0) Measure.dirac_ne_zero hS.dt hS.omega (bondMatrix_symm p) (by omega)).ne'
  refine ⟨fun hc hcL => ?_, fun hc => ?_⟩
  · exact equal_signs_ph (cfg := cfg) hP' hok hL' hd hmv.phonons hmv.nequil hmob (by omega) (by omega) hNN
      hg.shift hm hD hS hZ hc (by show p.neqlt ≤ (p.L.toNat : ℤ); omega) cnt
      (fun n => MeasData.allocate (mkSetup mc { p with nsampl := (n : ℤ) } fnbase).maxNsampl) (fun _ => rfl) (fun _ => ⟨_, rfl⟩) hst R hR
  · exact unequal_signs_ph (cfg := cfg) hP' hok hL' hd hmv.phonons hmv.nequil hmob (by omega) (by omega) hNN
      hg.shift hm hD hS hZ hc cnt (fun n => MeasData.allocate (mkSetup mc { p with nsampl := (n : ℤ) } fnbase).maxNsampl)
      (fun _ => rfl) hst R hR

end Verif.MonteCarlo

namespace Verif.Rounded.Ph

open MeasureTheory Filter Topology Matrix Verif.Lapack Verif.TimeFlow Verif.Greens Verif.Stratonovich Verif.MonteCarlo Verif.Ultra
  Verif.Measurement Verif.Main Verif.Metropolis Verif.DrawSeq Verif.Fock Verif.Progress Verif.Random Verif.Params

variable {σ : Type} {mc : Machine} {p : SimParams ℝ}

/-! ## Specification -/

/-- the run from scratch with `nsampl = n` in rounded arithmetic, with random numbers from `r`, ends with the result `res` -/
def RunsTo [NeZero (sites p)] (mc : Machine) (fnbase : String) (rng : Rng σ) (sys : Sys Seed (sites p) MeasData)
    (pl : Platform (sites p)) (bl : BlockArith) (n : ℕ) (r : σ) (res : LoopResult (State σ (sites p) MeasData)) : Prop :=
  let su := mkSetup mc { p with nsampl := n } fnbase
  let f := drawField rng su.LxN r
  let x := drawPhonons pl.toOps rng su.ph su.Ncell (sites p) su.cfg.L f.2
  ∃ tab, tables p pl = some tab ∧
    simulate (compOf mc p pl bl tab) (sys.withRng rng) su.ph su.cfg (fun _ => false) 0 x.2 (unflat f.1) (unflat x.1)
      (expPhonons pl su.ph su.Ncell su.cfg.L (unflat x.1)) zeroCounters (MeasData.allocate su.maxNsampl) = some res

/-- the random numbers for which the run is not defined, or the second number recorded is zero, or the quotient of both is further
away from `v` than `ε` -/
def Off [NeZero (sites p)] (mc : Machine) (fnbase : String) (rng : Rng σ) (sys : Sys Seed (sites p) MeasData)
    (pl : Platform (sites p)) (bl : BlockArith) (n : ℕ) (e s : Entry) (v ε : ℝ) : Set σ :=
  {r | ¬ ∃ res, RunsTo mc fnbase rng sys pl bl n r res ∧ s.val res.state.meas ≠ 0 ∧
    |e.val res.state.meas / s.val res.state.meas - v| ≤ ε}

/-- accuracy `u` of the arithmetic -/
structure Accurate {N : ℕ} (k S : ℕ) (u : ℝ) (pl : Platform N) (bl : BlockArith) : Prop where
  nonneg : 0 ≤ u
  platform : pl.Within k u
  log : pl.toOps.LogWithin u
  piv : pl.toArith.Pivoted
  blocks : bl.Within S k u

/-- the quotient of two recorded numbers is reliable in the arithmetics `Acc u` of accuracy `u`: for every tolerance, every long run,
in any arithmetic which is accurate enough for a run of this length, gives `v` up to the tolerance, except with a probability below the
tolerance (every event which consists of failures only has a probability below the tolerance) -/
def Reliable [NeZero (sites p)] [MeasurableSpace σ] (mc : Machine) (fnbase : String) (rng : Rng σ) (P : Measure σ)
    (sys : Sys Seed (sites p) MeasData) (Acc : ℝ → Platform (sites p) → BlockArith → Prop) (e s : Entry) (v : ℝ) : Prop :=
  ∀ ε : ℝ, 0 < ε → ∃ n₀ : ℕ, ∀ n, n₀ ≤ n → ∃ u₀ : ℝ, 0 < u₀ ∧ ∀ (u : ℝ) (pl : Platform (sites p)) (bl : BlockArith), u ≤ u₀ →
    Acc u pl bl → ∀ B : Set σ, MeasurableSet B → B ⊆ Off mc fnbase rng sys pl bl n e s v ε → P B ≤ ENNReal.ofReal ε

/-! ## Proof -/

/-- quotients of nearby numbers -/
theorem quotient_near {a b ε : ℝ} (hb : b ≠ 0) (hε : 0 < ε) :
    ∃ δ, 0 < δ ∧ ∀ a' b', |a' - a| ≤ δ → |b' - b| ≤ δ → b' ≠ 0 ∧ |a' / b' - a / b| ≤ ε := by
  have hcont : ContinuousAt (fun z : ℝ × ℝ => z.1 / z.2) (a, b) := continuousAt_fst.div continuousAt_snd hb
  obtain ⟨δ, hδ, h⟩ := Metric.continuousAt_iff.1 hcont ε hε
  refine ⟨min (δ / 2) (|b| / 2), by positivity, fun a' b' h1 h2 => ⟨?_, ?_⟩⟩
  · rintro rfl
    have := h2.trans (min_le_right _ _)
    rw [zero_sub, abs_neg] at this
    linarith [abs_pos.2 hb]
  · have h3 : dist (a', b') (a, b) < δ := by
      rw [Prod.dist_eq, Real.dist_eq, Real.dist_eq]
      refine max_lt ?_ ?_
      · linarith [h1.trans (min_le_left _ _)]
      · linarith [h2.trans (min_le_left _ _)]
    have h4 := h h3
    rw [Real.dist_eq] at h4
    exact h4.le

/-- sets which almost every point leaves for ever, unless it belongs to a set `A` -/
theorem eventually_small {Ω : Type} [MeasurableSpace Ω] {P : Measure Ω} [IsFiniteMeasure P] {A : Set Ω} {B : ℕ → Set Ω}
    {c c' : ENNReal} (hB : ∀ k, MeasurableSet (B k)) (hA : P A ≤ c) (hcc : c < c')
    (h : ∀ᵐ ω ∂P, ω ∉ A → ∀ᶠ k in atTop, ω ∉ B k) : ∃ k, P (B k) ≤ c' := by
  by_contra hcon
  push Not at hcon
  set C : ℕ → Set Ω := fun m => ⋃ k, B (k + m) with hC
  have hanti : Antitone C := fun m m' hm ω hω => by
    obtain ⟨k, hk⟩ := Set.mem_iUnion.1 hω
    refine Set.mem_iUnion.2 ⟨k + (m' - m), ?_⟩
    rw [show k + (m' - m) + m = k + m' by omega]
    exact hk
  have ht := tendsto_measure_iInter_atTop (μ := P) (s := C) (fun m => (MeasurableSet.iUnion fun k => hB _).nullMeasurableSet) hanti
    ⟨0, measure_ne_top _ _⟩
  have h1 : c' ≤ P (⋂ m, C m) := ge_of_tendsto' ht fun m =>
    (hcon (0 + m)).le.trans (measure_mono (Set.subset_iUnion (fun k => B (k + m)) 0))
  have h2 : P (⋂ m, C m) ≤ P A := by
    refine measure_mono_ae ?_
    filter_upwards [h] with ω hω hm
    by_contra hA'
    obtain ⟨k, hk⟩ := eventually_atTop.1 (hω hA')
    obtain ⟨j, hj⟩ := Set.mem_iUnion.1 (Set.mem_iInter.1 hm k)
    exact hk (j + k) (by omega) hj
  exact absurd (h1.trans (h2.trans hA)) (not_le.2 hcc)

variable [MeasurableSpace σ] {P : Measure σ}

/-- from the limit of the exact runs to the rounded runs -/
theorem reliable_of_limit [NeZero (sites p)] (hmc : mc.Rounds) (hv : Admissible p) (hg : Guards p)
    (hN : sites p < 2 ^ 31) (hmv : Movable p) (fnbase : String) (rng : Rng σ) (hlaw : rng.Lawful (sites p))
    (hP : rng.Ideal (sites p) P) (sys : Sys Seed (sites p) MeasData) (hsys : sysOf mc p = some sys) (k S : ℕ)
    (hS : sites p * (p.L.toNat / p.prodBlen.toNat) ≤ S) (R : ℕ → σ → LoopResult (State σ (sites p) MeasData))
    (hR : ∀ n : ℕ, ∀ᵐ r ∂P,
      let su := mkSetup mc { p with nsampl := n } fnbase
      let f := drawField rng su.LxN r
      let x := Main.drawPhonons rng su.ph su.Ncell (sites p) su.cfg.L f.2
      MonteCarlo.simulate (sys.withRng rng) su.ph su.cfg (fun _ => false) 0 x.2 (unflat f.1) (unflat x.1)
        (Main.expPhonons su.ph su.Ncell su.cfg.L (unflat x.1)) zeroCounters (MeasData.allocate su.maxNsampl) = some (R n r))
    {e s : Entry} {v : ℝ} (hs : Tendsto (fun n => P {r | s.val (R n r).state.meas = 0}) atTop (𝓝 0))
    (hlim : TendstoInMeasure P (fun n r => e.val (R n r).state.meas / s.val (R n r).state.meas) atTop fun _ => v) :
    Reliable mc fnbase rng P sys (Accurate k S) e s v := by
  have := hP.prob
  intro ε hε
  have hε4 : 0 < ENNReal.ofReal (ε / 4) := ENNReal.ofReal_pos.2 (by positivity)
  rw [tendstoInMeasure_iff_dist] at hlim
  obtain ⟨n₀, h0⟩ := eventually_atTop.1 (((hlim (ε / 2) (by positivity)).eventually (ge_mem_nhds hε4)).and
    (hs.eventually (ge_mem_nhds hε4)))
  refine ⟨n₀, fun n hn => ?_⟩
  obtain ⟨h1, h2⟩ := h0 n hn
  set A := {r | ε / 2 ≤ dist (e.val (R n r).state.meas / s.val (R n r).state.meas) v} ∪ {r | s.val (R n r).state.meas = 0} with hA
  have hPA : P A ≤ ENNReal.ofReal (ε / 2) := by
    refine (measure_union_le _ _).trans ((add_le_add h1 h2).trans (le_of_eq ?_))
    rw [← ENNReal.ofReal_add (by positivity) (by positivity)]
    congr 1
    ring
  -- the single runs
  have hv' : Admissible { p with nsampl := (n : ℤ) } :=
    ⟨hv.norb, hv.nx, hv.ny, hv.noSelf, hv.noDouble, hv.l, hv.prodBlen, hv.dvdL, hv.dvdNwraps, hv.nwraps, hv.itime⟩
  have hg' : Guards { p with nsampl := (n : ℤ) } := ⟨hg.U, hg.shift, hg.neqlt, hg.blocks⟩
  have hne : NeZero (sites { p with nsampl := (n : ℤ) }) := ‹NeZero (sites p)›
  have hfol := program_rounded_ph (p := { p with nsampl := (n : ℤ) }) (P := P) hmc hv' hg' hN hmv.phonons hmv.slices hmv.dt.ne'
    hmv.coupled hmv.box fnbase rng hlaw hP sys hsys (fun _ => false) k S hS
  have hae : ∀ᵐ r ∂P, r ∉ A → ∃ u₀ : ℝ, 0 < u₀ ∧ ∀ (u : ℝ) (pl : Platform (sites p)) (bl : BlockArith), u ≤ u₀ →
      Accurate k S u pl bl → r ∉ Off mc fnbase rng sys pl bl n e s v ε := by
    filter_upwards [hR n, hfol] with r hr hf hrA
    obtain ⟨res, e1, hf⟩ := hf
    obtain rfl : res = R n r := Option.some.inj (e1.symm.trans hr)
    have hq : |e.val (R n r).state.meas / s.val (R n r).state.meas - v| < ε / 2 := by
      rw [← Real.dist_eq]
      exact not_le.1 fun h => hrA (Or.inl h)
    have hs0 : s.val (R n r).state.meas ≠ 0 := fun h => hrA (Or.inr h)
    obtain ⟨δ, hδ, hnear⟩ := quotient_near (a := e.val (R n r).state.meas) hs0 (half_pos hε)
    obtain ⟨u₀, hu₀, hf⟩ := hf δ hδ [e, s]
    refine ⟨u₀, hu₀, fun u pl bl hu hacc hoff => hoff ?_⟩
    obtain ⟨tab, ht, res', e2, hcl⟩ := hf u pl bl hacc.nonneg hu hacc.platform hacc.log hacc.piv hacc.blocks
    obtain ⟨h3, h4⟩ := hnear _ _ (hcl.meas e (by simp)) (hcl.meas s (by simp))
    refine ⟨res', ⟨tab, ht, e2⟩, h3, ?_⟩
    have h5 := abs_add_le (e.val res'.state.meas / s.val res'.state.meas - e.val (R n r).state.meas / s.val (R n r).state.meas)
      (e.val (R n r).state.meas / s.val (R n r).state.meas - v)
    rw [sub_add_sub_cancel] at h5
    linarith
  by_contra hcon
  push Not at hcon
  choose u pl bl hu hacc B hmeas hoff hbig using fun t : ℕ => hcon (1 / ((t : ℝ) + 1)) (by positivity)
  obtain ⟨t, ht⟩ := eventually_small (c' := ENNReal.ofReal ε) hmeas hPA
    ((ENNReal.ofReal_lt_ofReal_iff hε).2 (half_lt_self hε)) (by
      filter_upwards [hae] with r hr hrA
      obtain ⟨u₀, hu₀, h⟩ := hr hrA
      filter_upwards [tendsto_one_div_add_atTop_nhds_zero_nat.eventually (ge_mem_nhds hu₀)] with t ht
      exact fun hB => h (u t) (pl t) (bl t) ((hu t).trans ht) (hacc t) (hoff t hB))
  exact absurd ht (not_le.2 (hbig t))

set_option maxHeartbeats 800000 in
/-- C124: long runs with phonons from scratch in rounded arithmetic. For every tolerance there is a number of iterations from which on
all recorded equal time, phonon and unequal time quantities, divided by the recorded sums of the signs, agree with the expectation
values in the Hubbard-Holstein model up to the tolerance, except with a probability below the tolerance, in every arithmetic of an
accuracy which depends on the number of iterations and on the parameters only. -/
theorem program_rounded_converges_ph [NeZero (sites p)] (hmc : mc.Rounds) (hv : Admissible p) (hg : Guards p)
    (hN : sites p < 2 ^ 31) (hmv : Movable p) (fnbase : String) (rng : Rng σ) (hlaw : rng.Lawful (sites p))
    (hP : rng.Ideal (sites p) P) (sys : Sys Seed (sites p) MeasData) (hsys : sysOf mc p = some sys) (k S : ℕ)
    (hS : sites p * (p.L.toNat / p.prodBlen.toNat) ≤ S) :
    let L := p.L.toNat
    (0 < p.neqlt → p.neqlt ≤ p.L →
      (EqHolds p.Nx.toNat p.Ny.toNat p.Norb.toNat p.pbcShift 0
        (fun X => holsteinMean p (Measure.dirac 0) L 0 (fun _ => 1) X 1) fun f z v =>
        Reliable mc fnbase rng P sys (Accurate k S) (.eq f z) .eqSign v) ∧
      ∀ f ∈ phFields, ∀ o < p.Norb.toNat,
        Reliable mc fnbase rng P sys (Accurate k S) (.ph f o) .phSign
          (phValue p.Norb.toNat (p.Nx.toNat * p.Ny.toNat) L p.dt (fun o => p.phonon.omega o)
            (fun F X => holsteinMean p (Measure.dirac 0) L 0 F X 1) o f)) ∧
    (0 < p.nuneqlt →
      UneqHolds p.Nx.toNat p.Ny.toNat p.Norb.toNat L p.pbcShift 0 (p.Nx.toNat = 1 ↔ p.Ny.toNat = 1)
        (fun l X Y => holsteinMean p (Measure.dirac 0) L l (fun _ => 1) X Y) fun f z v =>
        Reliable mc fnbase rng P sys (Accurate k S) (.uneq f z) .uneqSign v) := by
  intro L
  have := hP.prob
  have h4 := hv.l
  have hm2 := hmv.slices
  obtain ⟨R, hR, hlim⟩ := program_fresh_converges_ph hmc hv hg hN hmv fnbase rng hlaw hP sys hsys
  beta_reduce at hR
  have hncell : sys.Ncell = p.Nx.toNat * p.Ny.toNat := by
    unfold sysOf at hsys
    simp only [Option.bind_eq_bind] at hsys
    obtain ⟨a, -, hsys⟩ := Option.bind_eq_some_iff.1 hsys
    obtain ⟨b, -, hsys⟩ := Option.bind_eq_some_iff.1 hsys
    obtain rfl := Option.some.inj hsys
    rfl
  obtain ⟨ho, -⟩ := program_describes hv hg sys hsys
  have ho' : ∀ i, (sys.withRng rng).orb i = i.val / (p.Nx.toNat * p.Ny.toNat) := ho
  have hSd : MonteCarlo.Sound (sys.withRng rng) (phOf p) (Measure.dirac 0) L :=
    program_sound hmv.dt (Light.dirac 0) ho' (by omega) hmv.coupled hmv.omega
  have hP' : (sys.withRng rng).rng.Ideal (sites p) P := hP
  have hac := (confBase_ac (rest := Measure.dirac 0) hSd.weight).prod (Measure.AbsolutelyContinuous.refl P)
  have hst : Start (sys.withRng rng) (phOf p) (Measure.dirac 0) L P P (fresh (sys.withRng rng) (phOf p) L)
      (fun r => unflat (drawField rng (L * sites p) r).1)
      (fun r => unflat (Main.drawPhonons rng (phOf p) sys.Ncell (sites p) L (drawField rng (L * sites p) r).2).1)
      (fun r => Main.expPhonons (phOf p) sys.Ncell L
        (unflat (Main.drawPhonons rng (phOf p) sys.Ncell (sites p) L (drawField rng (L * sites p) r).2).1)) :=
    ⟨(fresh_quasi hP' fun _ _ => hmv.box).mono_right hac, fun r => rfl, fun r => rfl, fun r l hl i => by
      unfold Main.expPhonons
      rw [if_pos hl]
      rfl⟩
  obtain ⟨hs1, hs2⟩ := program_signs_ph hmc hv hg hN hmv fnbase rng hlaw hP sys hsys zeroCounters hst R fun n => by
    have hnc : (mkSetup mc { p with nsampl := (n : ℤ) } fnbase).Ncell = sys.Ncell := hncell.symm
    filter_upwards [hR n] with r hr
    dsimp only at hr
    rw [hnc] at hr
    exact hr
  have key := fun {e s : Entry} {v : ℝ} => reliable_of_limit (e := e) (s := s) (v := v) hmc hv hg hN hmv fnbase rng hlaw hP sys hsys
    k S hS R hR
  refine ⟨fun hc hcL => ⟨?_, fun f hf o ho => ?_⟩, fun hc => ?_⟩
  · exact (hlim.1 hc hcL).1.mono fun f z v h => key (e := .eq f z) (s := .eqSign) (hs1 hc hcL).1 h
  · exact key (e := .ph f o) (s := .phSign) (hs1 hc hcL).2 ((hlim.1 hc hcL).2 f hf o ho)
  · exact (hlim.2 hc).mono fun f z v h => key (e := .uneq f z) (s := .uneqSign) (hs2 hc) h

/-- for events proper -/
theorem Reliable.event [NeZero (sites p)] {fnbase : String} {rng : Rng σ} {sys : Sys Seed (sites p) MeasData}
    {Acc : ℝ → Platform (sites p) → BlockArith → Prop} {e s : Entry} {v : ℝ} (h : Reliable mc fnbase rng P sys Acc e s v)
    {ε : ℝ} (hε : 0 < ε) : ∃ n₀ : ℕ, ∀ n, n₀ ≤ n → ∃ u₀ : ℝ, 0 < u₀ ∧ ∀ (u : ℝ) (pl : Platform (sites p)) (bl : BlockArith), u ≤ u₀ →
      Acc u pl bl → NullMeasurableSet (Off mc fnbase rng sys pl bl n e s v ε) P →
        P (Off mc fnbase rng sys pl bl n e s v ε) ≤ ENNReal.ofReal ε := by
  obtain ⟨n₀, h⟩ := h ε hε
  refine ⟨n₀, fun n hn => ?_⟩
  obtain ⟨u₀, h0, h⟩ := h n hn
  refine ⟨u₀, h0, fun u pl bl hu ha hm => ?_⟩
  obtain ⟨B, hB, h1, h2⟩ := hm.exists_measurable_subset_ae_eq
  rw [← measure_congr h2]
  exact h u pl bl hu ha B h1 hB

theorem Reliable.mono [NeZero (sites p)] {fnbase : String} {rng : Rng σ} {sys : Sys Seed (sites p) MeasData}
    {Acc Acc' : ℝ → Platform (sites p) → BlockArith → Prop} {e s : Entry} {v : ℝ} (h : Reliable mc fnbase rng P sys Acc e s v)
    (hA : ∀ u₀ : ℝ, 0 < u₀ → ∃ u₁ : ℝ, 0 < u₁ ∧ ∀ u pl bl, u ≤ u₁ → Acc' u pl bl → ∃ u' ≤ u₀, Acc u' pl bl) :
    Reliable mc fnbase rng P sys Acc' e s v := by
  intro ε hε
  obtain ⟨n₀, h⟩ := h ε hε
  refine ⟨n₀, fun n hn => ?_⟩
  obtain ⟨u₀, h0, h⟩ := h n hn
  obtain ⟨u₁, h1, hA⟩ := hA u₀ h0
  refine ⟨u₁, h1, fun u pl bl hu ha => ?_⟩
  obtain ⟨u', h2, h3⟩ := hA u pl bl hu ha
  exact h u' pl bl h2 h3

open Verif.Reference in
/-- the textbook algorithms for all calls of BLAS and LAPACK but `dsyev`, with scalar operations and library functions of relative
error `u` -/
def Textbook {N : ℕ} [NeZero N] (k : ℕ) (u : ℝ) (pl : Platform N) (bl : BlockArith) : Prop :=
  ∃ (lib : Lib N) (piv : Mat N → Equiv.Perm (Fin N)), lib.Relative k u ∧
    (∀ x, 0 < x → |lib.log x - Real.log x| ≤ u * |Real.log x|) ∧ pl = refPlatform lib piv ∧ bl = refBlocks lib.toFlOps

open Verif.Reference in
/-- the textbook algorithms are accurate -/
theorem textbook_accurate (N S k : ℕ) [NeZero N] : ∃ K, ∀ u₀ : ℝ, 0 < u₀ → ∃ u₁ : ℝ, 0 < u₁ ∧
    ∀ (u : ℝ) (pl : Platform N) (bl : BlockArith), u ≤ u₁ → Textbook k u pl bl → ∃ u' ≤ u₀, Accurate K S u' pl bl := by
  obtain ⟨k₁, hk⟩ := refArith_within N
  obtain ⟨l, hl⟩ := refBlocks_within S
  set K := k₁ + l + k + 1 with hK
  refine ⟨K, fun u₀ h0 => ?_⟩
  have hp' : (0 : ℝ) < K := by exact_mod_cast Nat.succ_pos _
  set c := min 1 u₀ with hc
  have hc0 : 0 < c := by positivity
  refine ⟨c ^ K / K, by positivity, fun u pl bl hs hT => ?_⟩
  obtain ⟨lib, piv, ho, hlog, rfl, rfl⟩ := hT
  have hu := ho.ops.nonneg
  obtain ⟨e, ha, he⟩ := accuracy_exists K (by omega) hu
  rw [le_div_iff₀ hp'] at hs
  have hec : e ≤ c := le_of_pow_le_pow_left₀ (n := K) (by omega) hc0.le (by
    rw [he]
    linarith [mul_comm u (K : ℝ)])
  have h1 : e ≤ 1 := hec.trans (min_le_left _ _)
  have h4 : u ≤ e := by
    have h5 : e ^ K ≤ e := pow_le_of_le_one ha.nonneg h1 (by omega)
    have h6 : (1 : ℝ) ≤ K := by exact_mod_cast Nat.succ_pos _
    have h7 : u ≤ K * u := le_mul_of_one_le_left hu h6
    linarith
  have hA := hk K (by omega) lib.toFlOps u e piv ho.ops ha
  have hB := hl K (by omega) lib.toFlOps u e ho.ops ha
  exact ⟨e, hec.trans (min_le_right _ _), ha.nonneg, platform_within ho hA h4 (by omega), log_mono (log_within hu hlog) h4,
    fun A i j h => getrf_pivoted (op := lib.toOps) (h4.trans h1) ho.ops.div _ A i j h, hB⟩

/-- C124 with the textbook algorithms for BLAS and LAPACK -/
theorem program_reference_converges_ph [NeZero (sites p)] (hmc : mc.Rounds) (hv : Admissible p) (hg : Guards p)
    (hN : sites p < 2 ^ 31) (hmv : Movable p) (fnbase : String) (rng : Rng σ) (hlaw : rng.Lawful (sites p))
    (hP : rng.Ideal (sites p) P) (sys : Sys Seed (sites p) MeasData) (hsys : sysOf mc p = some sys) (k : ℕ) :
    let L := p.L.toNat
    (0 < p.neqlt → p.neqlt ≤ p.L →
      (EqHolds p.Nx.toNat p.Ny.toNat p.Norb.toNat p.pbcShift 0
        (fun X => holsteinMean p (Measure.dirac 0) L 0 (fun _ => 1) X 1) fun f z v =>
        Reliable mc fnbase rng P sys (Textbook k) (.eq f z) .eqSign v) ∧
      ∀ f ∈ phFields, ∀ o < p.Norb.toNat,
        Reliable mc fnbase rng P sys (Textbook k) (.ph f o) .phSign
          (phValue p.Norb.toNat (p.Nx.toNat * p.Ny.toNat) L p.dt (fun o => p.phonon.omega o)
            (fun F X => holsteinMean p (Measure.dirac 0) L 0 F X 1) o f)) ∧
    (0 < p.nuneqlt →
      UneqHolds p.Nx.toNat p.Ny.toNat p.Norb.toNat L p.pbcShift 0 (p.Nx.toNat = 1 ↔ p.Ny.toNat = 1)
        (fun l X Y => holsteinMean p (Measure.dirac 0) L l (fun _ => 1) X Y) fun f z v =>
        Reliable mc fnbase rng P sys (Textbook k) (.uneq f z) .uneqSign v) := by
  intro L
  obtain ⟨K, hK⟩ := textbook_accurate (sites p) (sites p * (p.L.toNat / p.prodBlen.toNat)) k
  obtain ⟨h1, h2⟩ := program_rounded_converges_ph hmc hv hg hN hmv fnbase rng hlaw hP sys hsys K _ le_rfl
  refine ⟨fun hc hcL => ⟨?_, fun f hf o ho => ?_⟩, fun hc => ?_⟩
  · exact (h1 hc hcL).1.mono fun f z v h => h.mono hK
  · exact ((h1 hc hcL).2 f hf o ho).mono hK
  · exact (h2 hc).mono fun f z v h => h.mono hK

open Verif.Reference in
/-- non-vacuity: the small system with phonons satisfies all hypotheses; the density of its first orbital is reliable, and there are
textbook arithmetics of any accuracy which do not compute exactly -/
example : ∃ mc : Machine, ∃ sys : Sys Seed (sites exW) MeasData, ∃ v : ℝ,
    Reliable mc "" (idealRng (sites exW)) (independent (drawDist (sites exW))) sys (Textbook 0) (.eq .densityU 0) .eqSign v ∧
    ∀ u : ℝ, 0 < u → ∃ (pl : Platform (sites exW)) (bl : BlockArith), Textbook 0 u pl bl ∧ pl.add 1 1 ≠ 2 := by
  obtain ⟨mc, hmc⟩ := machine_exists
  obtain ⟨sys, hsys, -⟩ := sys_defined hmc exW_admissible exW_guards.U exW_guards.shift (by decide) ""
  have hmv : Movable exW := by
    refine ⟨rfl, by decide, Or.inl (by decide), ?_, fun _ _ => ?_, fun _ _ => ?_, ?_, ?_, ?_⟩ <;> norm_num [exW, exQ, exPph, exP]
  have h := program_reference_converges_ph hmc exW_admissible exW_guards (by decide) hmv "" (idealRng (sites exW)) (idealRng_lawful _)
    (idealRng_ideal _) sys hsys 0
  refine ⟨mc, sys, _, (h.1 (by decide) (by decide)).1.dens .densityU (by decide) 0 (by decide), fun u hu => ?_⟩
  obtain ⟨lib, h1, h2, h3⟩ := lib_exists_log (sites exW) 0 hu
  exact ⟨refPlatform lib fun _ => 1, refBlocks lib.toFlOps, ⟨lib, fun _ => 1, h1, h3, rfl, rfl⟩, h2⟩

end Verif.Rounded.Ph
