import Verif.Props.Main
import Verif.Props.Sign
import Verif.Props.KineticExp
import Verif.Props.ParamsInterp
import Verif.Props.GreensUneq
import Verif.Props.MeasurementUneq
import Verif.Props.MeasurementPh
import Verif.Lemmas.LapackExists
import Verif.Lemmas.RngLive

/-! # Validated parameters and undefined behaviour (C12), runs of the whole program -/

set_option autoImplicit false

namespace Verif.Main

open Verif.Random Verif.Measurement Verif.MonteCarlo Verif.Files Verif.Params

/-! ## Specification -/

/-- what `ValidateSimulationParameters` should also have checked -/
structure Guards (p : SimParams ℝ) : Prop where
  /-- no square root of a negative number -/
  U : ∀ o : ℕ, (o : ℤ) < p.Norb → 0 ≤ p.dt * p.U o
  /-- no negative index -/
  shift : 0 ≤ p.pbcShift
  /-- no division by zero and no array of negative length -/
  neqlt : p.usePhonons = true → 0 < p.neqlt
  /-- more than one block -/
  blocks : p.nuneqlt > 0 → p.prodBlen ≠ p.L

/-- the machine rounds to nearest -/
def Machine.Rounds (mc : Machine) : Prop := Random.RoundsToNearest mc.rnd

variable {mc : Machine} {p : SimParams ℝ}

/-! ## Set-up -/

theorem sites_pos (h : Admissible p) : sites p ≠ 0 := by
  have h1 := h.norb
  have h2 := h.nx
  have h3 := h.ny
  have a1 : 0 < p.Norb.toNat := by omega
  have a2 : 0 < p.Nx.toNat := by omega
  have a3 : 0 < p.Ny.toNat := by omega
  unfold sites
  positivity

theorem toNat_dvd {a b : ℤ} (ha : 0 < a) (hb : 0 < b) (h : a ∣ b) : a.toNat ∣ b.toNat := by
  obtain ⟨c, hc⟩ := h
  have hc0 : 0 ≤ c := by
    by_contra hn
    have : a * c < 0 := mul_neg_of_pos_of_neg ha (by omega)
    omega
  exact ⟨c.toNat, by rw [hc, Int.toNat_mul (by omega) hc0]⟩

/-- two of the guards suffice for the constant data of a simulation -/
theorem sys_defined (hmc : mc.Rounds) (hv : Admissible p)
    (hU : ∀ o : ℕ, (o : ℤ) < p.Norb → 0 ≤ p.dt * p.U o) (hshift : 0 ≤ p.pbcShift)
    (hN : sites p < 2 ^ 31) (fnbase : String) :
    ∃ sys, sysOf mc p = some sys ∧ sys.Ok (mkSetup mc p fnbase).cfg.prodBlen ∧
      sys.rng = xorshift mc.rnd mc.order ∧
      sys.meas = realMeas p.Norb.toNat (p.Nx.toNat * p.Ny.toNat) p.L.toNat
        (Maps.construct p.Nx.toNat p.Ny.toNat p.pbcShift mc.maps) p.dt (fun o => p.phonon.omega o)
        (mc.qrs _) mc.tau mc.green := by
  have h1 := hv.norb
  have h2 := hv.nx
  have h3 := hv.ny
  obtain ⟨T, K, -, hK, -, -, hKK, -⟩ := Kinetic.kinetic_exponentials p.Norb.toNat p.Nx.toNat p.Ny.toNat
    (by omega) (by omega) p.pbcShift hshift p.t p.eps p.mu p.dt (mc.es _)
  obtain ⟨hs, hhs⟩ := Stratonovich.fill_defined (Norb := p.Norb.toNat) (U := fun o => p.U o) (dt := p.dt)
    (fun o ho => hU o (by omega))
  have hsys : sysOf mc p = some ⟨xorshift mc.rnd mc.order, mc.lp _, p.Nx.toNat * p.Ny.toNat, K.expK,
      K.invExpK, hs, p.nwraps.toNat, realMeas p.Norb.toNat (p.Nx.toNat * p.Ny.toNat) p.L.toNat
      (Maps.construct p.Nx.toNat p.Ny.toNat p.pbcShift mc.maps) p.dt (fun o => p.phonon.omega o)
      (mc.qrs _) mc.tau mc.green, mc.work _, mc.mats _⟩ := by
    unfold sysOf
    simp only [hK, hhs, Option.bind_eq_bind, Option.bind_some]
    rfl
  refine ⟨_, hsys, ⟨hKK, ?_, (xorshift_lawful mc.rnd hmc mc.order _ hN).1, ?_⟩, rfl, rfl⟩
  · intro i
    refine Stratonovich.fill_consistent _ _ _ _ hhs _ ?_
    show (i : ℕ) / (p.Nx.toNat * p.Ny.toNat) < p.Norb.toNat
    rw [Nat.div_lt_iff_lt_mul (by have : 0 < p.Nx.toNat := by omega
                                  have : 0 < p.Ny.toNat := by omega
                                  positivity)]
    exact i.2
  · exact toNat_dvd hv.prodBlen hv.nwraps hv.dvdNwraps

/-- C12, the set-up code: with the guards the validated parameters lead to no undefined operation in
the set-up, and to data that satisfy the hypotheses of all theorems on simulations -/
theorem setup_defined_partial (hmc : mc.Rounds) (hv : Admissible p) (hg : Guards p)
    (hN : sites p < 2 ^ 31) (fnbase : String) :
    setupOf mc p fnbase = some (mkSetup mc p fnbase) ∧
    ∃ sys, sysOf mc p = some sys ∧ sys.Ok (mkSetup mc p fnbase).cfg.prodBlen := by
  obtain ⟨sys, h1, h2, -⟩ := sys_defined hmc hv hg.U hg.shift hN fnbase
  refine ⟨?_, sys, h1, h2⟩
  unfold setupOf
  rw [if_neg (fun h => absurd h.2 (by have := hg.neqlt h.1; omega))]

/-- the set-up of a run without phonons satisfies the hypotheses of the theorems on main.c -/
theorem mkSetup_ok (hmc : mc.Rounds) (hv : Admissible p) (hg : Guards p) (hN : sites p < 2 ^ 31)
    (hp : p.usePhonons = false) (fnbase : String) :
    ∃ sys, sysOf mc p = some sys ∧ (mkSetup mc p fnbase).Ok sys := by
  obtain ⟨sys, h1, h2, h3, h4⟩ := sys_defined hmc hv hg.U hg.shift hN fnbase
  refine ⟨sys, h1, h1, h2, ?_, toNat_dvd hv.prodBlen hv.l hv.dvdL, hp, ⟨_, _, _, _, _, _, h4⟩,
    _, _, h3⟩
  have := hv.l
  show 0 < p.L.toNat
  omega

/-! ## Runs -/

/-- the equal time measurements never leave the arrays -/
theorem eq_defined {σ : Type} (hv : Admissible p) (hg : Guards p) {sys : Sys σ (sites p) MeasData}
    (h : sys.meas = realMeas p.Norb.toNat (p.Nx.toNat * p.Ny.toNat) p.L.toNat
        (Maps.construct p.Nx.toNat p.Ny.toNat p.pbcShift mc.maps) p.dt (fun o => p.phonon.omega o)
        (mc.qrs _) mc.tau mc.green) (gu gd : Greens.GreensFn (sites p)) (m : MeasData) :
    sys.meas.eq gu gd m ≠ none := by
  have h1 := hv.norb
  have h2 := hv.nx
  have h3 := hv.ny
  have : NeZero (sites p) := ⟨sites_pos hv⟩
  obtain ⟨c, -, hc⟩ := accumulateEq_contrib (N := sites p) (Norb := p.Norb.toNat)
    (Ncell := p.Nx.toNat * p.Ny.toNat) (by unfold sites; ring)
    (construct_good (show 0 < p.Nx.toNat by omega) (show 0 < p.Ny.toNat by omega) p.pbcShift hg.shift
      mc.maps) gu gd
  rw [h]
  simp only [realMeas, hc, Option.map_some]
  simp

/-- the unequal time measurements never leave the arrays -/
theorem uneq_defined {σ : Type} (hv : Admissible p) (hg : Guards p) (hn : p.nuneqlt > 0)
    {sys : Sys σ (sites p) MeasData} {ph : Phonon} {cfg : Cfg} (hL : cfg.L = p.L.toNat)
    (hlen : cfg.prodBlen = p.prodBlen.toNat)
    (h : sys.meas = realMeas p.Norb.toNat (p.Nx.toNat * p.Ny.toNat) p.L.toNat
        (Maps.construct p.Nx.toNat p.Ny.toNat p.pbcShift mc.maps) p.dt (fun o => p.phonon.omega o)
        (mc.qrs _) mc.tau mc.green) (st : State σ (sites p) MeasData)
    (hst : AtRest sys ph cfg st) (m : MeasData) :
    sys.meas.uneq (st.Gu.sgndet * st.Gd.sgndet) st.tsmU st.tsmD m ≠ none := by
  have h1 := hv.norb
  have h2 := hv.nx
  have h3 := hv.ny
  have : NeZero (sites p) := ⟨sites_pos hv⟩
  have key : ∀ (B : ℕ → Mat (sites p)) (tsm : TimeFlow.TSM (sites p)) (G : Greens.GreensFn (sites p)),
      SpinInv B cfg.L cfg.prodBlen 0 tsm G →
      ∃ A, GreensUneq.compute (mc.qrs _) tsm p.L.toNat mc.tau mc.green = some A ∧
        A.toCur (sites p) p.L.toNat = (GreensUneq.exactG tsm.B p.L.toNat).cur p.L.toNat := by
    intro B tsm G hi
    have e : tsm.L = p.L.toNat := hi.td.hL.trans hL
    have hf : TimeFlow.Fresh tsm := fun k hk => hi.fresh k hk (by
      rintro ⟨-, h0⟩
      exact h0 (Nat.zero_mod _))
    have hnum : 2 ≤ tsm.numBprod := by
      by_contra hc
      have hnum := hi.td.dims.num
      have h1 : tsm.numBprod = 1 := by omega
      have hmul := hi.td.dims.mul
      rw [h1, one_mul, e, hi.td.hlen, hlen] at hmul
      have hl := hv.l
      have hpl := hv.prodBlen
      exact hg.blocks hn (by omega)
    have hdet : (1 + TimeFlow.cyclicProd tsm.B tsm.L 0).det ≠ 0 := by
      have : TimeFlow.cyclicProd tsm.B tsm.L 0 = TimeFlow.cyclicProd B cfg.L 0 := by
        rw [hi.td.hL]
        have hl : 0 < cfg.L := by rw [hL]; have := hv.l; omega
        exact TimeFlow.prodSeq_congr fun k hk => (hi.mats _ (Nat.mod_lt _ hl)).1
      rw [this]
      exact hi.good.det_ne
    have := GreensUneq.compute_toCur (mc.qrs _) tsm hi.td.dims hf hnum
      (fun l hl => (hi.mats l (hi.td.hL ▸ hl)).2) hdet mc.tau mc.green
    rw [e] at this
    exact this
  have hinv : ∃ Bu Bd, SpinInv Bu cfg.L cfg.prodBlen 0 st.tsmU st.Gu ∧
      SpinInv Bd cfg.L cfg.prodBlen 0 st.tsmD st.Gd := by
    unfold AtRest at hst
    split at hst
    · exact ⟨_, _, hst.inv.up, hst.inv.down⟩
    · exact ⟨_, _, hst.up, hst.down⟩
  obtain ⟨Bu, Bd, iu, id⟩ := hinv
  obtain ⟨A, a1, a2⟩ := key _ _ _ iu
  obtain ⟨D, d1, d2⟩ := key _ _ _ id
  obtain ⟨c, -, hc⟩ := accumulateUneq_contrib (N := sites p) (Norb := p.Norb.toNat)
    (Ncell := p.Nx.toNat * p.Ny.toNat) (L := p.L.toNat) (by unfold sites; ring)
    (construct_good (show 0 < p.Nx.toNat by omega) (show 0 < p.Ny.toNat by omega) p.pbcShift hg.shift
      mc.maps) (GreensUneq.exactG st.tsmU.B p.L.toNat) (GreensUneq.exactG st.tsmD.B p.L.toNat)
      ((st.Gu.sgndet * st.Gd.sgndet : ℤ) : ℝ)
  rw [h]
  simp only [realMeas, a1, d1, a2, d2, hc, Option.bind_eq_bind, Option.bind_some]
  simp

/-- C12: with the guards, a process without phonons has no undefined operation at all and ends,
provided that the generator is not in the zero state and the initial weight is not zero -/
theorem process_defined_partial [NeZero (sites p)] (hmc : mc.Rounds) (hv : Admissible p)
    (hg : Guards p) (hN : sites p < 2 ^ 31) (hp : p.usePhonons = false) (fnbase : String)
    (inp : RunInput) (fs : FS) (it : ℤ) (seed : Seed) (hseed : seed.NonZero)
    (s : ℕ → Fin (sites p) → Fin 2) (meas : MeasData)
    (hstart : startup (mkSetup mc p fnbase) fs = some (.go it seed s meas))
    (hw : ∀ sys, sysOf mc p = some sys → sys.weight p.L.toNat s (fun _ _ => 1) ≠ 0) :
    ∃ out, process (mkSetup mc p fnbase) inp fs = some out := by
  obtain ⟨sys, h1, h2, h3, h4⟩ := sys_defined hmc hv hg.U hg.shift hN fnbase
  obtain ⟨sys', h1', hok⟩ := mkSetup_ok hmc hv hg hN hp fnbase
  obtain rfl : sys = sys' := Option.some.inj (h1.symm.trans h1')
  obtain ⟨r, hr, -⟩ := simulate_live (ph := (mkSetup mc p fnbase).ph) (cfg := (mkSetup mc p fnbase).cfg)
    (P := Seed.NonZero) (h3 ▸ xorshift_keeps _ _) h2 hok.L hok.dvd hok.phonons
    inp.stop it seed hseed s (unflat fun _ => 0) (mkSetup mc p fnbase).expX0 zeroCounters meas (hw sys h1)
    (fun sd hsd => h3 ▸ xorshift_shuffle hmc _ hN sd hsd)
    (eq_defined hv hg h4) (fun hn st hst => uneq_defined hv hg hn rfl rfl h4 st hst _)
  rw [← perform_eq hok] at hr
  unfold process
  simp only [hstart, hr, Option.bind_eq_bind, Option.bind_some]
  exact ⟨_, rfl⟩

theorem drawField_nonZero (rnd : ℝ → ℝ) (junk : ℕ → ℤ) (n : ℕ) (sd : Seed) (h : sd.NonZero) :
    (drawField (xorshift rnd junk) n sd).2.NonZero := by
  unfold drawField
  generalize List.range n = l
  generalize hq : ((fun _ => 0, sd) : (ℕ → Fin 2) × Seed) = q
  have hq2 : q.2.NonZero := by rw [← hq]; exact h
  clear hq h
  induction l generalizing q with
  | nil => exact hq2
  | cons i l ih => exact ih _ ((xorshift_keeps rnd junk).uniform _ hq2)

theorem drawPhonons_nonZero (rnd : ℝ → ℝ) (junk : ℕ → ℤ) (ph : Phonon) (Ncell N L : ℕ) (sd : Seed)
    (h : sd.NonZero) : (drawPhonons (xorshift rnd junk) ph Ncell N L sd).2.NonZero := by
  unfold drawPhonons
  generalize List.range (L * N) = l
  generalize hq : ((fun _ => 0, sd) : (ℕ → ℝ) × Seed) = q
  have hq2 : q.2.NonZero := by rw [← hq]; exact h
  clear hq h
  induction l generalizing q with
  | nil => exact hq2
  | cons i l ih =>
    rw [List.foldl_cons]
    refine ih _ ?_
    split
    · exact hq2
    · exact (xorshift_keeps rnd junk).uniform _ hq2

/-- validated parameters never lead to the zero state -/
theorem seed_nonZero (hv : Admissible p) (fnbase : String) :
    (seedInit (mkSetup mc p fnbase).seed).NonZero :=
  seedInit_nonZero ((seed_itime p.itime p.itime).1 hv.itime)

/-- a process that finds no checkpoint starts from scratch -/
theorem startup_fresh {N : ℕ} (su : Setup N) (fs : FS) (h : searchCheckpoint fs su.fnbase ≠ 0) :
    startup su fs = some (.go 0 (drawField su.rng su.LxN (seedInit su.seed)).2
      (unflat (drawField su.rng su.LxN (seedInit su.seed)).1) (MeasData.allocate su.maxNsampl)) := by
  unfold startup
  rw [if_pos h]

/-- C12: a fresh process without phonons -/
theorem fresh_defined_partial [NeZero (sites p)] (hmc : mc.Rounds) (hv : Admissible p)
    (hg : Guards p) (hN : sites p < 2 ^ 31) (hp : p.usePhonons = false) (fnbase : String)
    (inp : RunInput) (fs : FS) (hfs : searchCheckpoint fs fnbase ≠ 0)
    (hw : ∀ sys, sysOf mc p = some sys → ∀ s, sys.weight p.L.toNat s (fun _ _ => 1) ≠ 0) :
    ∃ out, process (mkSetup mc p fnbase) inp fs = some out :=
  process_defined_partial hmc hv hg hN hp fnbase inp fs _ _
    (drawField_nonZero _ _ _ _ (seed_nonZero hv fnbase)) _ _ (startup_fresh _ fs hfs)
    (fun sys h => hw sys h _)

/-- the number of phonon samples still to come fits into the array -/
def Room (n : ℕ) (m : MeasData) : Prop := m.ph.nsampl + n ≤ m.ph.maxNsampl

/-- every measurement at equal times uses one element of the array, and is defined as long as there is one -/
theorem room_budget {σ : Type} [NeZero (sites p)] (hv : Admissible p) (hg : Guards p) {sys : Sys σ (sites p) MeasData}
    (hmeas : sys.meas = realMeas p.Norb.toNat (p.Nx.toNat * p.Ny.toNat) p.L.toNat
        (Maps.construct p.Nx.toNat p.Ny.toNat p.pbcShift mc.maps) p.dt (fun o => p.phonon.omega o)
        (mc.qrs _) mc.tau mc.green) : Budget sys p.L.toNat Room :=
  ⟨fun n gu gd m hm => by
    obtain ⟨m', hm'⟩ := Option.ne_none_iff_exists'.1 (eq_defined hv hg hmeas gu gd m)
    refine ⟨m', hm', ?_⟩
    rw [hmeas] at hm'
    simp only [realMeas, Option.map_eq_some_iff] at hm'
    obtain ⟨e, -, rfl⟩ := hm'
    exact hm,
  fun n gu gd l X m hl hm => by
    have hm' : m.ph.nsampl + (n + 1) ≤ m.ph.maxNsampl := hm
    obtain ⟨c, -, e⟩ := accumulatePh_contrib (N := sites p) (Norb := p.Norb.toNat)
      (Ncell := p.Nx.toNat * p.Ny.toNat) (L := p.L.toNat) (by unfold sites; ring) gu gd X p.dt
      (fun o => p.phonon.omega o) hl m.ph (by omega)
    rw [hmeas]
    simp only [realMeas, e, Option.map_some]
    refine ⟨_, rfl, ?_⟩
    show m.ph.nsampl + 1 + n ≤ m.ph.maxNsampl
    omega⟩

/-- the measurements at unequal times leave the array as it is -/
theorem room_uneq {σ : Type} (hv : Admissible p) (hg : Guards p) (hn : p.nuneqlt > 0)
    {sys : Sys σ (sites p) MeasData} {ph : Phonon} {cfg : Cfg} (hcL : cfg.L = p.L.toNat)
    (hcB : cfg.prodBlen = p.prodBlen.toNat)
    (hmeas : sys.meas = realMeas p.Norb.toNat (p.Nx.toNat * p.Ny.toNat) p.L.toNat
        (Maps.construct p.Nx.toNat p.Ny.toNat p.pbcShift mc.maps) p.dt (fun o => p.phonon.omega o)
        (mc.qrs _) mc.tau mc.green) (st : State σ (sites p) MeasData) (n : ℕ)
    (hst : AtRest sys ph cfg st) (hm : Room n st.meas) :
    ∃ m, sys.meas.uneq (st.Gu.sgndet * st.Gd.sgndet) st.tsmU st.tsmD st.meas = some m ∧ Room n m := by
  obtain ⟨m', hm'⟩ := Option.ne_none_iff_exists'.1 (uneq_defined hv hg hn hcL hcB hmeas st hst st.meas)
  refine ⟨m', hm', ?_⟩
  rw [hmeas] at hm'
  simp only [realMeas, Option.bind_eq_bind] at hm'
  obtain ⟨a, -, hm'⟩ := Option.bind_eq_some_iff.1 hm'
  obtain ⟨b, -, hm'⟩ := Option.bind_eq_some_iff.1 hm'
  obtain ⟨e, -, hm'⟩ := Option.bind_eq_some_iff.1 hm'
  obtain rfl := Option.some.inj hm'
  exact hm

/-- the allocated array has room for all samples of a run -/
theorem room_start (hv : Admissible p) (hn : 0 < p.neqlt) (fnbase : String) (it : ℤ) (meas : MeasData)
    (hmeas : meas.ph = PhData.allocate (mkSetup mc p fnbase).maxNsampl) :
    Room ((p.nequil + p.nsampl - max it p.nequil).toNat * (p.L.toNat / p.neqlt.toNat)) meas := by
  unfold Room
  rw [hmeas]
  show 0 + (p.nequil + p.nsampl - max it p.nequil).toNat * (p.L.toNat / p.neqlt.toNat)
    ≤ ((p.nsampl * p.L).tdiv p.neqlt).toNat
  have hl := hv.l
  by_cases hs : p.nsampl ≤ 0
  · rw [show (p.nequil + p.nsampl - max it p.nequil).toNat = 0 by omega]
    simp
  · have e1 : (p.nequil + p.nsampl - max it p.nequil).toNat ≤ p.nsampl.toNat := by omega
    rw [Int.tdiv_eq_ediv_of_nonneg (mul_nonneg (by omega) (by omega))]
    have e2 : ((p.nsampl * p.L) / p.neqlt).toNat = p.nsampl.toNat * p.L.toNat / p.neqlt.toNat := by
      obtain ⟨a, ha⟩ := Int.eq_ofNat_of_zero_le (show 0 ≤ p.nsampl by omega)
      obtain ⟨b, hb⟩ := Int.eq_ofNat_of_zero_le (show 0 ≤ p.L by omega)
      obtain ⟨c, hc⟩ := Int.eq_ofNat_of_zero_le (show 0 ≤ p.neqlt by omega)
      rw [ha, hb, hc]
      simp only [Int.toNat_natCast]
      norm_cast
    rw [e2, zero_add]
    refine le_trans (Nat.mul_le_mul_right _ e1) ?_
    exact Nat.mul_div_le_mul_div_assoc _ _ _

/-- a simulation with phonons has no undefined operation -/
theorem perform_defined_ph_partial [NeZero (sites p)] (hmc : mc.Rounds) (hv : Admissible p)
    (hg : Guards p) (hN : sites p < 2 ^ 31) (hp : p.usePhonons = true) (fnbase : String)
    (stop : ℤ → Bool) (it : ℤ) (seed : Seed) (hseed : seed.NonZero)
    (s : ℕ → Fin (sites p) → Fin 2) (meas : MeasData)
    (hmeas : meas.ph = PhData.allocate (mkSetup mc p fnbase).maxNsampl)
    (hw : ∀ sys, sysOf mc p = some sys → ∀ s X, sys.weight p.L.toNat s (sys.expOf (phOf p) X) ≠ 0) :
    ∃ res, perform (mkSetup mc p fnbase) stop it seed s meas = some res ∧ res.state.rng.NonZero := by
  obtain ⟨sys, h1, h2, h3, h4⟩ := sys_defined hmc hv hg.U hg.shift hN fnbase
  have hL : 0 < (mkSetup mc p fnbase).cfg.L := by
    have := hv.l
    show 0 < p.L.toNat
    omega
  have hncell : sys.Ncell = p.Nx.toNat * p.Ny.toNat := by
    unfold sysOf at h1
    simp only [Option.bind_eq_bind] at h1
    obtain ⟨a, -, h1⟩ := Option.bind_eq_some_iff.1 h1
    obtain ⟨b, -, h1⟩ := Option.bind_eq_some_iff.1 h1
    obtain rfl := Option.some.inj h1
    rfl
  let r := drawPhonons (mkSetup mc p fnbase).rng (mkSetup mc p fnbase).ph (mkSetup mc p fnbase).Ncell
    (sites p) (mkSetup mc p fnbase).cfg.L seed
  have hr0 : r.2.NonZero := drawPhonons_nonZero _ _ _ _ _ _ _ hseed
  have hn := hg.neqlt hp
  obtain ⟨res, hres, hlive⟩ := simulate_live_ph (ph := (mkSetup mc p fnbase).ph)
    (cfg := (mkSetup mc p fnbase).cfg)
    (P := Seed.NonZero) (h3 ▸ xorshift_keeps _ _) h2 hL (toNat_dvd hv.prodBlen hv.l hv.dvdL) hp
    stop it r.2 hr0 s (unflat r.1)
    (expPhonons (mkSetup mc p fnbase).ph (mkSetup mc p fnbase).Ncell (mkSetup mc p fnbase).cfg.L (unflat r.1))
    zeroCounters meas
    (fun l hl i => by
      unfold expPhonons Sys.expOf Sys.orb
      rw [if_pos hl, hncell]
      rfl)
    (hw sys h1) (fun sd hsd => h3 ▸ xorshift_shuffle hmc _ hN sd hsd)
    (fun sd hsd => h3 ▸ xorshift_site _ _ hN sd hsd) (Q := Room)
    (room_budget hv hg h4) (fun n m h => by unfold Room at *; omega) (room_start hv hn fnbase it meas hmeas)
    (fun hn st n hst hm => room_uneq hv hg hn rfl rfl h4 st n hst hm)
  refine ⟨res, ?_, hlive⟩
  unfold perform
  have e1 : (mkSetup mc p fnbase).cfg.usePhonons = true := hp
  have e2 : (mkSetup mc p fnbase).sys = some sys := h1
  simp only [e1, e2, if_true, Option.bind_eq_bind, Option.bind_some]
  exact hres

/-- C12 with phonons: no operation is undefined, no array is overrun and the process ends, provided
that the generator is not in the zero state and no configuration has weight zero -/
theorem process_defined_ph_partial [NeZero (sites p)] (hmc : mc.Rounds) (hv : Admissible p)
    (hg : Guards p) (hN : sites p < 2 ^ 31) (hp : p.usePhonons = true) (fnbase : String)
    (inp : RunInput) (fs : FS) (it : ℤ) (seed : Seed) (hseed : seed.NonZero)
    (s : ℕ → Fin (sites p) → Fin 2) (meas : MeasData)
    (hmeas : meas.ph = PhData.allocate (mkSetup mc p fnbase).maxNsampl)
    (hstart : startup (mkSetup mc p fnbase) fs = some (.go it seed s meas))
    (hw : ∀ sys, sysOf mc p = some sys → ∀ s X, sys.weight p.L.toNat s (sys.expOf (phOf p) X) ≠ 0) :
    ∃ out, process (mkSetup mc p fnbase) inp fs = some out := by
  obtain ⟨res, hperf, -⟩ := perform_defined_ph_partial hmc hv hg hN hp fnbase inp.stop it seed hseed s meas
    hmeas hw
  unfold process
  simp only [hstart, hperf, Option.bind_eq_bind, Option.bind_some]
  exact ⟨_, rfl⟩

/-- C12: a fresh process with phonons -/
theorem fresh_defined_ph_partial [NeZero (sites p)] (hmc : mc.Rounds) (hv : Admissible p)
    (hg : Guards p) (hN : sites p < 2 ^ 31) (hp : p.usePhonons = true) (fnbase : String)
    (inp : RunInput) (fs : FS) (hfs : searchCheckpoint fs fnbase ≠ 0)
    (hw : ∀ sys, sysOf mc p = some sys → ∀ s X, sys.weight p.L.toNat s (sys.expOf (phOf p) X) ≠ 0) :
    ∃ out, process (mkSetup mc p fnbase) inp fs = some out :=
  process_defined_ph_partial hmc hv hg hN hp fnbase inp fs _ _
    (drawField_nonZero _ _ _ _ (seed_nonZero hv fnbase)) _ _ rfl (startup_fresh _ fs hfs) hw

/-! ## Positive weights -/

/-- with a diagonal kinetic exponential (no hopping) both determinants are positive -/
theorem det_diagonal {σ M : Type} {N : ℕ} {sys : Sys σ N M} {len : ℕ} (hok : sys.Ok len) (d : Fin N → ℝ)
    (hd : ∀ i, 0 < d i) (hK : sys.expK = Matrix.diagonal d) (L l : ℕ) (s : ℕ → Fin N → Fin 2)
    (E : ℕ → Fin N → ℝ) (hE : ∀ l i, 0 < E l i) :
    0 < (1 + TimeFlow.cyclicProd (sys.fieldB sys.hs.expVu s E) L l).det ∧
    0 < (1 + TimeFlow.cyclicProd (sys.fieldB sys.hs.expVd s E) L l).det := by
  have key : ∀ expV : Fin 2 → ℕ → ℝ, (∀ v i, 0 < expV v (sys.orb i)) →
      0 < (1 + TimeFlow.cyclicProd (sys.fieldB expV s E) L l).det := by
    intro expV hV
    have hp : ∀ k, ∃ e : Fin N → ℝ, (∀ i, 0 < e i) ∧
        TimeFlow.prodSeq (fun j => sys.fieldB expV s E ((l + j) % L)) k = Matrix.diagonal e := by
      intro k
      induction k with
      | zero => exact ⟨fun _ => 1, fun _ => one_pos, by rw [TimeFlow.prodSeq, Matrix.diagonal_one]⟩
      | succ k ih =>
        obtain ⟨e, e1, e2⟩ := ih
        rw [TimeFlow.prodSeq, e2]
        simp only [Sys.fieldB, hK, Matrix.diagonal_mul_diagonal]
        exact ⟨_, fun i => mul_pos (mul_pos (mul_pos (hV _ _) (hE _ _)) (hd _)) (e1 _), rfl⟩
    obtain ⟨e, e1, e2⟩ := hp L
    have e3 : TimeFlow.cyclicProd (sys.fieldB expV s E) L l = Matrix.diagonal e := e2
    rw [e3, ← Matrix.diagonal_one, Matrix.diagonal_add, Matrix.det_diagonal]
    exact Finset.prod_pos fun i _ => add_pos one_pos (e1 i)
  exact ⟨key sys.hs.expVu fun v i => ((hok.hs i).pos v).1, key sys.hs.expVd fun v i => ((hok.hs i).pos v).2⟩

/-- a system of a single site has positive determinants -/
theorem det_one_site (hmc : mc.Rounds) (hv : Admissible p) (hg : Guards p) (h1 : sites p = 1)
    (sys : Sys Seed (sites p) MeasData) (hsys : sysOf mc p = some sys) (L l : ℕ)
    (s : ℕ → Fin (sites p) → Fin 2) (E : ℕ → Fin (sites p) → ℝ) (hE : ∀ l i, 0 < E l i) :
    0 < (1 + TimeFlow.cyclicProd (sys.fieldB sys.hs.expVu s E) L l).det ∧
    0 < (1 + TimeFlow.cyclicProd (sys.fieldB sys.hs.expVd s E) L l).det := by
  obtain ⟨sys', e1, e2, -⟩ := sys_defined (mc := mc) hmc hv hg.U hg.shift (by omega) ""
  obtain rfl : sys = sys' := Option.some.inj (hsys.symm.trans e1)
  have hx := hv.nx
  have hy := hv.ny
  have hpd : sys.expK.PosDef := by
    obtain ⟨T, K, -, hK, -, -, -, -, -, -, hpd, -⟩ := Kinetic.kinetic_exponentials p.Norb.toNat p.Nx.toNat
      p.Ny.toNat (by omega) (by omega) p.pbcShift hg.shift p.t p.eps p.mu p.dt (mc.es _)
    unfold sysOf at hsys
    simp only [Option.bind_eq_bind] at hsys
    obtain ⟨a, ha, hsys⟩ := Option.bind_eq_some_iff.1 hsys
    obtain ⟨b, -, hsys⟩ := Option.bind_eq_some_iff.1 hsys
    obtain rfl := Option.some.inj hsys
    obtain rfl : K = a := Option.some.inj (hK.symm.trans ha)
    exact hpd
  have hsub : Subsingleton (Fin (sites p)) := by
    rw [h1]
    infer_instance
  refine det_diagonal e2 (fun i => sys.expK i i) (fun i => hpd.diag_pos) ?_ L l s E hE
  ext i j
  obtain rfl := hsub.elim i j
  rw [Matrix.diagonal_apply_eq]

/-- a system of a single site has positive weights -/
theorem weight_one_site (hmc : mc.Rounds) (hv : Admissible p) (hg : Guards p) (h1 : sites p = 1)
    (sys : Sys Seed (sites p) MeasData) (hsys : sysOf mc p = some sys) (L : ℕ)
    (s : ℕ → Fin (sites p) → Fin 2) (E : ℕ → Fin (sites p) → ℝ) (hE : ∀ l i, 0 < E l i) :
    sys.weight L s E ≠ 0 := by
  obtain ⟨hu, hd⟩ := det_one_site hmc hv hg h1 sys hsys L 0 s E hE
  unfold Sys.weight Sys.flow
  simp only [ne_eq, abs_eq_zero, mul_eq_zero, not_or]
  exact ⟨hu.ne', hd.ne'⟩

/-! ## The guards are needed -/

/-- without the first guard every process that gets beyond the checkpoint is undefined -/
theorem undefined_sqrt [NeZero (sites p)] (fnbase : String) (h : ∃ o < p.Norb.toNat, p.dt * p.U o < 0)
    (inp : RunInput) (fs : FS) (it : ℤ) (seed : Seed) (s : ℕ → Fin (sites p) → Fin 2) (meas : MeasData)
    (hstart : startup (mkSetup mc p fnbase) fs = some (.go it seed s meas)) :
    process (mkSetup mc p fnbase) inp fs = none := by
  have hf : Stratonovich.fill p.Norb.toNat (fun o => p.U o) p.dt = none := by
    unfold Stratonovich.fill
    rw [if_pos]
    obtain ⟨o, h1, h2⟩ := h
    exact ⟨o, h1, not_le.1 fun h3 => absurd ((Stratonovich.hsY_nonneg_iff _ _).1 h3) (not_le.2 h2)⟩
  have hs : (mkSetup mc p fnbase).sys = none := by
    show sysOf mc p = none
    unfold sysOf
    simp only [hf, Option.bind_eq_bind, Option.bind_none]
    cases Kinetic.kineticExponential p.Norb.toNat p.Nx.toNat p.Ny.toNat p.pbcShift p.t p.eps p.mu p.dt
      (mc.es _) <;> rfl
  unfold process perform
  simp only [hstart, hs, Option.bind_eq_bind, Option.bind_some, Option.bind_none]

/-- if the kinetic exponential is undefined, so is every process that gets beyond the checkpoint -/
theorem undefined_kinetic [NeZero (sites p)] (fnbase : String)
    (h : Kinetic.hopping p.Norb.toNat p.Nx.toNat p.Ny.toNat p.pbcShift p.t p.eps p.mu = none)
    (inp : RunInput) (fs : FS) (it : ℤ) (seed : Seed) (s : ℕ → Fin (sites p) → Fin 2) (meas : MeasData)
    (hstart : startup (mkSetup mc p fnbase) fs = some (.go it seed s meas)) :
    process (mkSetup mc p fnbase) inp fs = none := by
  have hK : Kinetic.kineticExponential p.Norb.toNat p.Nx.toNat p.Ny.toNat p.pbcShift p.t p.eps p.mu p.dt
      (mc.es _) = none := by
    unfold Kinetic.kineticExponential
    rw [h]
    rfl
  have hs : (mkSetup mc p fnbase).sys = none := by
    show sysOf mc p = none
    unfold sysOf
    simp only [hK, Option.bind_eq_bind, Option.bind_none]
  unfold process perform
  simp only [hstart, hs, Option.bind_eq_bind, Option.bind_some, Option.bind_none]

/-- with a single block every unequal time measurement is undefined -/
theorem undefined_block [NeZero (sites p)] (hmc : mc.Rounds) (hv : Admissible p)
    (hU : ∀ o : ℕ, (o : ℤ) < p.Norb → 0 ≤ p.dt * p.U o) (hsh : 0 ≤ p.pbcShift)
    (hb : p.prodBlen = p.L) (hn : p.nuneqlt > 0) (hN : sites p < 2 ^ 31) (hp : p.usePhonons = false)
    (fnbase : String) (inp : RunInput) (fs : FS) (it : ℤ) (seed : Seed)
    (s : ℕ → Fin (sites p) → Fin 2) (meas : MeasData)
    (hstart : startup (mkSetup mc p fnbase) fs = some (.go it seed s meas))
    (j : ℕ) (hj : p.nequil ≤ it + j) (hj2 : it + j < p.nequil + p.nsampl)
    (hj3 : (it + j).tmod p.nuneqlt = 0) (hstop : ∀ k : ℕ, k ≤ j → inp.stop (it + k) = false) :
    process (mkSetup mc p fnbase) inp fs = none := by
  obtain ⟨sys, h1, h2, h3, h4⟩ := sys_defined hmc hv hU hsh hN fnbase
  have hL : 0 < p.L.toNat := by have := hv.l; omega
  have hd : p.prodBlen.toNat ∣ p.L.toNat := by rw [hb]
  unfold process
  simp only [hstart, Option.bind_eq_bind, Option.bind_some]
  rw [Option.bind_eq_none_iff]
  intro r hr
  exfalso
  unfold perform at hr
  have e1 : (mkSetup mc p fnbase).cfg.usePhonons = false := hp
  have e2 : (mkSetup mc p fnbase).sys = some sys := h1
  simp only [e1, e2, Bool.false_eq_true, if_false, Option.bind_eq_bind, Option.bind_some] at hr
  unfold simulate at hr
  simp only [Option.bind_eq_bind] at hr
  obtain ⟨st, f1, hr⟩ := Option.bind_eq_some_iff.1 hr
  have i0 := startState_inv (cfg := (mkSetup mc p fnbase).cfg) h2 hL hd hp _ _ _ _ _ _ st f1
  obtain ⟨m, m1, -, m3, -, -, m6, m7⟩ := simLoop_spec _ _ _ _ _ _ _ hr
  have e3 : ((mkSetup mc p fnbase).cfg.nequil + (mkSetup mc p fnbase).cfg.nsampl - it).toNat
      = (p.nequil + p.nsampl - it).toNat := rfl
  rw [e3] at m1 m6 m7
  have hm : j < m := by
    by_contra hc
    cases hbr : r.broke with
    | true =>
      have := (m6 hbr).2
      rw [hstop m (by omega)] at this
      cases this
    | false =>
      have := m7 hbr
      omega
  obtain ⟨k, rfl⟩ : ∃ k, m = (j + 1) + k := ⟨m - (j + 1), by omega⟩
  rw [runs_add] at m3
  obtain ⟨st2, g1, -⟩ := Option.bind_eq_some_iff.1 m3
  obtain ⟨st1, g0, g1⟩ := Option.bind_eq_some_iff.1 g1
  have hrest := runs_inv (simBody sys (mkSetup mc p fnbase).ph (mkSetup mc p fnbase).cfg)
    (fun st => AtRest sys (mkSetup mc p fnbase).ph (mkSetup mc p fnbase).cfg st ∧ True)
    (fun it a b ha hb => simBody_inv h2 (fun _ => True)
      ⟨fun _ _ _ _ _ _ _ _ _ _ _ _ _ _ => trivial,
        fun _ _ _ _ _ _ _ _ _ _ _ _ _ _ _ _ _ => trivial, fun _ _ _ _ _ => trivial⟩ it a b ha.1
      trivial hb) it j st st1 ⟨by unfold AtRest; rw [e1]; exact i0, trivial⟩ g0
  have i1 := hrest.1
  unfold AtRest at i1
  rw [e1] at i1
  have i1 : Inv sys (fun _ _ => 1) (mkSetup mc p fnbase).cfg.L (mkSetup mc p fnbase).cfg.prodBlen 0 st1 :=
    i1
  unfold simBody at g1
  simp only [e1, Bool.false_eq_true, if_false, Option.bind_eq_bind] at g1
  obtain ⟨st', g2, g3⟩ := Option.bind_eq_some_iff.1 g1
  have i2 := (dqmcIteration_inv h2 _ (fun _ => True) (fun _ _ _ _ _ _ _ _ _ _ _ _ => trivial) i1
    trivial g2).1
  have hone : st'.tsmU.numBprod = 1 := by
    have hmul := i2.up.td.dims.mul
    rw [i2.up.td.hL, i2.up.td.hlen] at hmul
    have hmul : p.L.toNat = st'.tsmU.numBprod * p.prodBlen.toNat := hmul
    rw [hb] at hmul
    exact Nat.eq_of_mul_eq_mul_right hL (by rw [one_mul]; exact hmul.symm)
  unfold measureUneq at g3
  rw [if_pos ⟨hj, hn, hj3⟩, h4] at g3
  simp only [realMeas, GreensUneq.compute_one _ (Nat.pos_of_ne_zero (NeZero.ne (sites p))) _ hone,
    Option.bind_eq_bind, Option.bind_none] at g3
  cases g3

/-! ## A small system -/

/-- one site, one time slice, two iterations -/
noncomputable def exP : SimParams ℝ where
  Norb := 1
  Nx := 1
  Ny := 1
  pbcShift := 0
  t := ⟨fun _ => 0, fun _ => 0, fun _ => 0, fun _ => 0, fun _ => 0⟩
  U := fun _ => 4
  eps := fun _ => 0
  mu := 0
  usePhonons := false
  phonon := ⟨fun _ => 0, fun _ => 0, 0, 0, 0, 0⟩
  dt := 1 / 8
  L := 1
  prodBlen := 1
  nwraps := 1
  nequil := 0
  nsampl := 2
  neqlt := 1
  nuneqlt := 0
  itime := 1
  maxTime := 0

theorem exP_admissible : Admissible exP := by
  constructor <;> first | (intros; rfl) | (intros; left; rfl) | decide

theorem exP_guards : Guards exP := by
  refine ⟨fun o _ => ?_, le_refl 0, fun h => Bool.noConfusion h, fun h => absurd h (lt_irrefl 0)⟩
  norm_num [exP]

/-- a machine -/
theorem machine_exists : ∃ mc : Machine, mc.Rounds := by
  obtain ⟨rnd, h⟩ := Random.roundsToNearest_exists
  exact ⟨{
    conv := ⟨fun _ => 0, fun _ => 0, fun _ => 0⟩
    rnd := rnd
    F := ⟨fun _ _ => 0, fun _ => 0⟩
    lp := fun N => (Verif.Lapack.lapack_exists N).some
    es := fun N => (Kinetic.eigensolver_exists N).some
    qrs := fun N => ⟨(Verif.Lapack.qrAlg_exists _ _).some, (Verif.Lapack.qrAlg_exists _ _).some⟩
    mats := fun _ _ => 0
    work := fun _ => 0
    order := fun _ => 0
    maps := fun _ => 0
    tau := fun _ => 0
    green := ⟨fun _ => 0, fun _ => 0, fun _ => 0⟩
    vars := ⟨0, seedInit 0, fun _ => 0⟩
    defaultDir := fun _ => "out" }, h⟩

instance : NeZero (sites exP) := ⟨by decide⟩

/-- a run of the small system is always defined and ends -/
theorem exP_runs (mc : Machine) (hmc : mc.Rounds) (fnbase : String) (inp : RunInput) (fs : FS)
    (hfs : searchCheckpoint fs fnbase ≠ 0) : ∃ out, process (mkSetup mc exP fnbase) inp fs = some out :=
  fresh_defined_partial hmc exP_admissible exP_guards (by decide) rfl fnbase inp fs hfs
    (fun sys h s => weight_one_site hmc exP_admissible exP_guards rfl sys h _ s _ fun _ _ => one_pos)

/-- the small system with phonons -/
noncomputable def exPph : SimParams ℝ :=
  { exP with usePhonons := true, phonon := ⟨fun _ => 1, fun _ => 1, 1, 1, 1, 1⟩ }

theorem exPph_admissible : Admissible exPph := by
  constructor <;> first | (intros; rfl) | (intros; left; rfl) | decide

theorem exPph_guards : Guards exPph := by
  refine ⟨fun o _ => ?_, le_refl 0, fun _ => by decide, fun h => absurd h (lt_irrefl 0)⟩
  norm_num [exP, exPph]

instance : NeZero (sites exPph) := ⟨by decide⟩

/-- a run of the small system with phonons is always defined and ends -/
theorem exPph_runs (mc : Machine) (hmc : mc.Rounds) (fnbase : String) (inp : RunInput) (fs : FS)
    (hfs : searchCheckpoint fs fnbase ≠ 0) : ∃ out, process (mkSetup mc exPph fnbase) inp fs = some out :=
  fresh_defined_ph_partial hmc exPph_admissible exPph_guards (by decide) rfl fnbase inp fs hfs
    (fun sys h s _ => weight_one_site hmc exPph_admissible exPph_guards rfl sys h _ s _
      fun _ _ => Real.exp_pos _)

/-- C12 is false: accepted parameters with a negative `U` (square root of a negative number) -/
theorem not_validated_sqrt (mc : Machine) (fnbase : String) :
    ∃ (p : SimParams ℝ) (_ : NeZero (sites p)), validate p = 0 ∧ p.dt * p.U 0 < 0 ∧
      ∀ inp fs, searchCheckpoint fs fnbase ≠ 0 → process (mkSetup mc p fnbase) inp fs = none := by
  refine ⟨{ exP with U := fun _ => -4 }, ⟨by decide⟩, ?_, by norm_num [exP], ?_⟩
  · rw [(validate_iff _).1]
    constructor <;> first | (intros; rfl) | (intros; left; rfl) | decide
  · intro inp fs h
    have : NeZero (sites { exP with U := fun _ => -4 }) := ⟨by decide⟩
    exact undefined_sqrt fnbase ⟨0, by decide, by norm_num [exP]⟩ inp fs _ _ _ _ (startup_fresh _ fs h)

/-- C12 is false: accepted parameters with a negative `pbc_shift` (index outside the hopping matrix) -/
theorem not_validated_shift (mc : Machine) (fnbase : String) :
    ∃ (p : SimParams ℝ) (_ : NeZero (sites p)), validate p = 0 ∧ p.pbcShift < 0 ∧
      ∀ inp fs, searchCheckpoint fs fnbase ≠ 0 → process (mkSetup mc p fnbase) inp fs = none := by
  refine ⟨{ exP with Nx := 2, pbcShift := -1 }, ⟨by decide⟩, ?_, by norm_num [exP], ?_⟩
  · rw [(validate_iff _).1]
    constructor <;> first | (intros; rfl) | (intros; left; rfl) | decide
  · intro inp fs h
    have : NeZero (sites { exP with Nx := 2, pbcShift := -1 }) := ⟨by decide⟩
    refine undefined_kinetic fnbase ?_ inp fs _ _ _ _ (startup_fresh _ fs h)
    have e1 : exP.Norb.toNat = 1 := rfl
    have e2 : exP.Ny.toNat = 1 := rfl
    have e3 : Int.toNat 2 = 2 := rfl
    simp only [e1, e2, e3]
    exact Kinetic.hopping_negative_shift _ _ _

/-- C12 is false: accepted parameters with phonons and `neqlt = 0` (division by zero) -/
theorem not_validated_division (mc : Machine) (fnbase : String) :
    ∃ p : SimParams ℝ, validate p = 0 ∧ setupOf mc p fnbase = none := by
  refine ⟨{ exP with usePhonons := true, neqlt := 0 }, ?_, ?_⟩
  · rw [(validate_iff _).1]
    constructor <;> first | (intros; rfl) | (intros; left; rfl) | decide
  · unfold setupOf
    rw [if_pos ⟨rfl, rfl⟩]

/-- C12 is false: accepted parameters with one block and unequal time measurements (index outside the
matrix of the block cyclic inversion) -/
theorem not_validated_block (mc : Machine) (hmc : mc.Rounds) (fnbase : String) :
    ∃ (p : SimParams ℝ) (_ : NeZero (sites p)), validate p = 0 ∧ p.prodBlen = p.L ∧ 0 < p.nuneqlt ∧
      ∀ inp fs, inp.stop 0 = false → searchCheckpoint fs fnbase ≠ 0 →
        process (mkSetup mc p fnbase) inp fs = none := by
  have hv : Admissible { exP with nuneqlt := 1 } := by
    constructor <;> first | (intros; rfl) | (intros; left; rfl) | decide
  refine ⟨{ exP with nuneqlt := 1 }, ⟨by decide⟩, ((validate_iff _).1).2 hv, rfl, by decide, ?_⟩
  intro inp fs hs h
  have : NeZero (sites { exP with nuneqlt := 1 }) := ⟨by decide⟩
  refine undefined_block hmc hv (fun o _ => by norm_num [exP]) (by decide) rfl (by decide) (by decide) rfl
    fnbase inp fs _ _ _ _ (startup_fresh _ fs h) 0 (by decide) (by decide) (by decide) ?_
  intro k hk
  obtain rfl : k = 0 := by omega
  exact hs

/-- C11, the program: parameters which are not admissible are never simulated, the program ends with a negative code
and touches no file -/
theorem program_rejects (mc : Machine) (inp : Input) (fs : FS) (r : ℤ × SimParams ℝ)
    (hr : parse mc.conv inp.file (initialParams inp.ticks) = some r) (h : r.1 < 0 ∨ ¬ Admissible r.2) :
    program mc inp fs = some (fs, if r.1 < 0 then -1 else -2) := by
  unfold program
  rw [hr]
  simp only [Option.bind_eq_bind, Option.bind_some]
  by_cases h1 : r.1 < 0
  · simp [h1]
  · have h2 : validate r.2 = -1 := (validate_iff r.2).2 (h.resolve_left h1)
    simp [h1, h2]

/-- C11: a run which ends otherwise has read admissible parameters -/
theorem program_admissible (mc : Machine) (inp : Input) (fs fs' : FS) (code : ℤ)
    (h : program mc inp fs = some (fs', code)) (hc : code ≠ -1) (hc' : code ≠ -2) :
    ∃ r, parse mc.conv inp.file (initialParams inp.ticks) = some r ∧ 0 ≤ r.1 ∧ Admissible r.2 := by
  have hp := h
  unfold program at hp
  obtain ⟨r, hr, -⟩ := Option.bind_eq_some_iff.1 hp
  by_cases h1 : r.1 < 0 ∨ ¬ Admissible r.2
  · have := program_rejects mc inp fs r hr h1
    rw [h] at this
    simp only [Option.some.injEq, Prod.mk.injEq] at this
    obtain ⟨-, e⟩ := this
    split at e <;> [exact absurd e hc; exact absurd e hc']
  · rw [not_or, not_not] at h1
    exact ⟨r, hr, not_lt.1 h1.1, h1.2⟩

/-- a missing parameter file -/
example (mc : Machine) (inp : Input) (fs : FS) (h : inp.file = none) : program mc inp fs = some (fs, -1) :=
  (program_rejects mc inp fs (-1, initialParams inp.ticks) (by rw [h]; rfl) (Or.inl (by norm_num))).trans (by simp)

end Verif.Main
