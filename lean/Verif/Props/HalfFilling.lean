import Verif.Props.Runs
import Verif.Props.Program
import Verif.Props.MeasurementUneq

/-! # Property C96: the density of a half filled system is one in every sample -/

set_option autoImplicit false

namespace Verif.Measurement

open Verif.Lattice

variable {N : ℕ}

/-- specification: relations between the arrays of the equal time measurements of a half filled system, with the weight `w`
of the samples and the signs `η` of the sublattices -/
structure HalfFilled (Nx Ny Norb : ℕ) (s : ℤ) (η : Fin N → ℝ) (w : ℝ) (a : EqF → ℤ → ℝ) : Prop where
  /-- every orbital has one electron -/
  density : ∀ o : ℕ, o < Norb → a .densityU o + a .densityD o = w
  /-- electrons of one spin are correlated like holes of the other -/
  corr : ∀ o p : ℕ, o < Norb → p < Norb → ∀ dx dy : ℤ,
    let z : ℤ := cellOf Nx Ny s dx dy + (Nx * Ny : ℕ) * (o + Norb * p)
    a .dd z = w - a .densityU o - a .densityU p + a .uu z
  /-- the Green's function of one spin is that of the holes of the other -/
  green : ∀ i j : Fin N, a .grfunD (i.val + N * j.val) =
    (if i = j then w else 0) - η i * η j * a .grfunU (j.val + N * i.val)

/-- the average over all cells does not change if the cells are moved -/
theorem cellAvg_move {Nx Ny : ℕ} (hx : 0 < Nx) (hy : 0 < Ny) (s dx dy : ℤ) (F : ℕ → ℝ) :
    cellAvg (Nx * Ny) (fun c => F (moveCell Nx Ny s c dx dy)) = cellAvg (Nx * Ny) F := by
  unfold cellAvg
  congr 1
  have hinj : Set.InjOn (fun c => moveCell Nx Ny s c dx dy) (Finset.range (Nx * Ny)) := by
    intro a ha b hb h
    exact (moveCell_inj hx hy s (by simpa using ha) (by simpa using hb) dx dy).1 h
  have himg : (Finset.range (Nx * Ny)).image (fun c => moveCell Nx Ny s c dx dy) = Finset.range (Nx * Ny) := by
    refine Finset.eq_of_subset_of_card_le (fun x hx' => ?_) (le_of_eq (Finset.card_image_of_injOn hinj).symm)
    obtain ⟨c, -, rfl⟩ := Finset.mem_image.1 hx'
    exact Finset.mem_range.2 (moveCell_lt hx hy s c dx dy)
  conv_rhs => rw [← himg, Finset.sum_image hinj]

theorem cellAvg_one {n : ℕ} (h : 0 < n) (w : ℝ) : cellAvg n (fun _ => w) = w := by
  unfold cellAvg
  have : (n : ℝ) ≠ 0 := by exact_mod_cast h.ne'
  rw [Finset.sum_const, Finset.card_range, nsmul_eq_mul]
  field_simp

/-- the estimates of one sample -/
theorem Estimates.halfFilled [NeZero N] {Nx Ny Norb : ℕ} (hx : 0 < Nx) (hy : 0 < Ny) {s t : ℤ}
    {U D : Mat N} {e : EqF → ℤ → ℝ} (h : Estimates Nx Ny Norb s t U D e) {η : Fin N → ℝ} (hη : ∀ i, η i * η i = 1)
    (hD : ∀ i j, D i j = (if i = j then 1 else 0) - η i * η j * U j i) :
    HalfFilled Nx Ny Norb s η 1 e := by
  have hpos : 0 < Nx * Ny := Nat.mul_pos hx hy
  have hd : ∀ i, D i i = 1 - U i i := fun i => by rw [hD, if_pos rfl, hη, one_mul]
  constructor
  · intro o ho
    rw [h.dens .densityU (by decide) o ho, h.dens .densityD (by decide) o ho, ← cellAvg_add]
    rw [← cellAvg_one hpos 1]
    refine cellAvg_congr fun c _ => ?_
    simp [densSpec, Pairs.mean, equalTime, nOp, spinG, hd]
  · intro o p ho hp dx dy z
    simp only [z]
    rw [h.dens .densityU (by decide) o ho, h.dens .densityU (by decide) p hp, h.corr .dd (by decide) o p ho hp,
      h.corr .uu (by decide) o p ho hp, ← cellAvg_move hx hy s dx dy fun c =>
        densSpec (equalTime U D) (siteN N (Nx * Ny) p c) .densityU]
    conv_rhs => rw [← cellAvg_one hpos 1]
    rw [← cellAvg_sub, ← cellAvg_sub, ← cellAvg_add]
    refine cellAvg_congr fun c _ => ?_
    generalize siteN N (Nx * Ny) o c = a
    generalize siteN N (Nx * Ny) p (moveCell Nx Ny s c dx dy) = b
    simp [densSpec, corrSpec, Pairs.corr, Pairs.four, Pairs.mean, equalTime, nOp, spinG, hd]
    by_cases hab : a = b
    · subst hab
      simp [hd]
      ring
    · have h1 := hD a b
      have h2 := hD b a
      rw [if_neg hab] at h1
      rw [if_neg (Ne.symm hab)] at h2
      rw [h1, h2, if_neg hab]
      linear_combination (-(η b * η b) * (U b a * U a b)) * hη a - (U b a * U a b) * hη b
  · intro i j
    rw [h.grfunU, h.grfunD, hD]

theorem HalfFilled.add {Nx Ny Norb : ℕ} {s : ℤ} {η : Fin N → ℝ} {w w' : ℝ} {a a' : EqF → ℤ → ℝ}
    (h : HalfFilled Nx Ny Norb s η w a) (h' : HalfFilled Nx Ny Norb s η w' a') (r : ℝ) :
    HalfFilled Nx Ny Norb s η (w + r * w') fun f z => a f z + r * a' f z := by
  constructor
  · intro o ho
    linear_combination h.density o ho + r * h'.density o ho
  · intro o p ho hp dx dy z
    have h1 := h.corr o p ho hp dx dy
    have h2 := h'.corr o p ho hp dx dy
    simp only at h1 h2 ⊢
    linear_combination h1 + r * h2
  · intro i j
    have h1 := h.green i j
    have h2 := h'.green i j
    split at h1 <;> rename_i hij
    · rw [if_pos hij] at h2 ⊢
      linear_combination h1 + r * h2
    · rw [if_neg hij] at h2 ⊢
      linear_combination h1 + r * h2

theorem HalfFilled.zero (Nx Ny Norb : ℕ) (s : ℤ) (η : Fin N → ℝ) : HalfFilled Nx Ny Norb s η 0 fun _ _ => 0 := by
  constructor <;> intros <;> simp

theorem HalfFilled.div {Nx Ny Norb : ℕ} {s : ℤ} {η : Fin N → ℝ} {w : ℝ} {a : EqF → ℤ → ℝ}
    (h : HalfFilled Nx Ny Norb s η w a) (n : ℝ) : HalfFilled Nx Ny Norb s η (w / n) fun f z => a f z / n := by
  have := (HalfFilled.zero Nx Ny Norb s η).add h n⁻¹
  simp only [zero_add] at this
  simpa only [div_eq_inv_mul] using this

end Verif.Measurement

namespace Verif.MonteCarlo

open Matrix Verif.Lapack Verif.TimeFlow Verif.Greens Verif.Stratonovich

variable {σ : Type} {N : ℕ} {M : Type} {sys : Sys σ N M}

/-- C96 for one configuration: the Green's function of spin down is that of the holes of spin up -/
theorem green_half_filling (η : Fin N → ℝ) (hph : ParticleHole sys η)
    (hc : ∀ i : Fin N, Consistent sys.hs (sys.orb i)) {L l : ℕ} {s : ℕ → Fin N → Fin 2}
    {Gu Gd : GreensFn N} (h : Exact sys L (fun _ _ => 1) s l Gu Gd) (i j : Fin N) :
    Gd.mat i j = (if i = j then 1 else 0) - η i * η j * Gu.mat j i := by
  have hDD := hph.diag_sq
  have hf := flow_half_filling η hph hc L l s
  have hu := h.up.mat
  have hd := h.down.mat
  have nu := h.up.det_ne
  have nd := h.down.det_ne
  set A := cyclicProd (sys.fieldB sys.hs.expVu s fun _ _ => 1) L l
  set B := cyclicProd (sys.fieldB sys.hs.expVd s fun _ _ => 1) L l
  set D : Mat N := diagonal η with hD
  have iu : (1 + A)⁻¹ * (1 + A) = 1 := nonsing_inv_mul _ (isUnit_iff_ne_zero.2 nu)
  have id : (1 + B) * (1 + B)⁻¹ = 1 := mul_nonsing_inv _ (isUnit_iff_ne_zero.2 nd)
  rw [← hu] at iu
  rw [← hd] at id
  -- `(1 + Aᵀ) (D B D) = D B D + 1`
  have e1 : (1 + Aᵀ) * (D * B * D) = D * (1 + B) * D := by
    rw [Matrix.add_mul, hf, Matrix.one_mul, Matrix.mul_add, Matrix.mul_one, Matrix.add_mul, hDD, add_comm]
  have iu' : (1 + Aᵀ) * Gu.matᵀ = 1 := by
    rw [← transpose_one, ← transpose_add, ← transpose_mul, iu]
  have iu'' : Gu.matᵀ * (1 + Aᵀ) = 1 := mul_eq_one_comm.1 iu'
  have e2 : Gu.matᵀ * (D * (1 + B) * D) = D * B * D := by
    rw [← e1, ← Matrix.mul_assoc, iu'', Matrix.one_mul]
  have e3 : (1 - D * Gu.matᵀ * D) * (1 + B) = 1 := by
    have : D * Gu.matᵀ * D * (1 + B) = B := by
      calc D * Gu.matᵀ * D * (1 + B) = D * (Gu.matᵀ * (D * (1 + B) * D)) * D := by
            simp only [Matrix.mul_assoc, hDD, Matrix.mul_one]
        _ = D * (D * B * D) * D := by rw [e2]
        _ = (D * D) * B * (D * D) := by simp only [Matrix.mul_assoc]
        _ = B := by rw [hDD, Matrix.one_mul, Matrix.mul_one]
    rw [Matrix.sub_mul, this, Matrix.one_mul, add_sub_cancel_right]
  have e4 : Gd.mat = 1 - D * Gu.matᵀ * D := by
    calc Gd.mat = (1 - D * Gu.matᵀ * D) * (1 + B) * Gd.mat := by rw [e3, Matrix.one_mul]
      _ = _ := by rw [Matrix.mul_assoc, id, Matrix.mul_one]
  rw [e4, Matrix.sub_apply, one_apply, hD, mul_diagonal, diagonal_mul, transpose_apply]
  ring

end Verif.MonteCarlo

namespace Verif.Main

open Verif.Random Verif.Measurement Verif.MonteCarlo Verif.Files Verif.Params Verif.Lattice

/-! ## All samples of a run -/

section samples

variable {σ : Type} {N : ℕ} [NeZero N] {sys : Sys σ N MeasData} {ph : Phonon} {cfg : Cfg} {Nx Ny Norb : ℕ} {shift : ℤ}
  {junk : ℤ → ℤ} {dt : ℝ} {omega : ℕ → ℝ} {alg : BlockCyclic.QRs N} {tau : BlockCyclic.Buf} {old : GreensUneq.Arrays}

/-- a property of the equal time data that every exact sample preserves holds after a run without phonons -/
theorem samples_inv (hx : 0 < Nx) (hy : 0 < Ny) (hN : N = Nx * Ny * Norb) (hs : 0 ≤ shift)
    (hm : sys.meas = realMeas Norb (Nx * Ny) cfg.L (Maps.construct Nx Ny shift junk) dt omega alg tau old)
    (hp : cfg.usePhonons = false) (P : EqData → Prop)
    (hP : ∀ (s : ℕ → Fin N → Fin 2) (l : ℕ) (Gu Gd : Greens.GreensFn N) (e : EqF → ℤ → ℝ) (m : EqData),
      l + 1 ≤ cfg.L → Exact sys cfg.L (fun _ _ => 1) s (l + 1) Gu Gd → Estimates Nx Ny Norb shift 0 Gu.mat Gd.mat e → P m →
      P { arr := fun f z => m.arr f z + ((Gu.sgndet * Gd.sgndet : ℤ) : ℝ) * e f z
          sign := m.sign + ((Gu.sgndet * Gd.sgndet : ℤ) : ℝ)
          nsampl := m.nsampl + 1 }) : MeasInv sys ph cfg fun m => P m.eq := by
  refine ⟨fun _ neqlt s l gu gd m m' hl _ _ hE hq e => ?_, fun h => absurd h (by rw [hp]; simp),
    fun st m _ hq e => ?_⟩
  · rw [hm] at e
    simp only [realMeas, Option.map_eq_some_iff] at e
    obtain ⟨d, e, rfl⟩ := e
    obtain ⟨est, h1, h2⟩ := accumulateEq_estimates hx hy hN shift hs junk gu gd hE.up.sgn hE.down.sgn
    rw [h2] at e
    obtain rfl := Option.some.inj e
    exact hP s l gu gd est m.eq hl hE h1 hq
  · rw [hm] at e
    simp only [realMeas, Option.bind_eq_bind] at e
    obtain ⟨a, -, e⟩ := Option.bind_eq_some_iff.1 e
    obtain ⟨b, -, e⟩ := Option.bind_eq_some_iff.1 e
    obtain ⟨c, -, e⟩ := Option.bind_eq_some_iff.1 e
    obtain rfl := Option.some.inj e
    exact hq

end samples

/-! ## Runs -/

/-- a half filled system: all bonds join sites of different colours, the site energies equal the chemical potential, and
there are no phonons -/
structure HalfFilling (p : SimParams ℝ) (col : Coloring) : Prop where
  fits : col.Fits p.Norb.toNat p.Nx.toNat p.Ny.toNat p.pbcShift p.t
  eps : ∀ o : ℕ, o < p.Norb.toNat → p.eps o = p.mu
  phonons : p.usePhonons = false

/-- colours of a checkerboard -/
def checkerboard : Coloring := ⟨1, 1, fun _ => 0⟩

/-- hopping to horizontal and vertical neighbours only, on a lattice with even extents and even shift -/
theorem checkerboard_fits {Norb Nx Ny : ℕ} {s : ℤ} {t : Hoppings ℝ} (hx : 2 ∣ Nx) (hy : 2 ∣ Ny) (hs : 2 ∣ s)
    (aa : ∀ k, t.aa k = 0) (ad : ∀ k, t.ad k = 0) (bc : ∀ k, t.bc k = 0) : checkerboard.Fits Norb Nx Ny s t := by
  refine ⟨by simp only [checkerboard]; omega, by simp only [checkerboard]; omega, fun k o q _ _ h => ?_⟩
  cases k
  · exact absurd (aa _) h
  · simp [checkerboard, Coloring.num, Kinetic.Bond.src, Kinetic.Bond.dst]
  · simp [checkerboard, Coloring.num, Kinetic.Bond.src, Kinetic.Bond.dst]
  · exact absurd (ad _) h
  · exact absurd (bc _) h

/-- colours by orbitals -/
def orbitals (c : ℕ → ℤ) : Coloring := ⟨0, 0, c⟩

/-- hopping between orbitals of different colours only, on any lattice; for instance a hexagonal lattice with the two
orbitals as sublattices -/
theorem orbitals_fits {c : ℕ → ℤ} {Norb Nx Ny : ℕ} {s : ℤ} {t : Hoppings ℝ}
    (h : ∀ (k : Kinetic.Bond) (o q : ℕ), o < Norb → q < Norb → k.amp t (o + q * Norb) ≠ 0 → ¬ (2 : ℤ) ∣ c q - c o) :
    (orbitals c).Fits Norb Nx Ny s t := by
  refine ⟨by simp [orbitals], by simp [orbitals], fun k o q ho hq ht => ?_⟩
  simpa [orbitals, Coloring.num] using h k o q ho hq ht

variable {mc : Machine} {p : SimParams ℝ} {col : Coloring}

/-- sign of the sublattice of a site -/
noncomputable def sublattice (p : SimParams ℝ) (col : Coloring) (i : Fin (sites p)) : ℝ :=
  col.sign p.Nx.toNat p.Ny.toNat i.val

theorem program_particleHole (hv : Admissible p) (hg : Guards p) (hh : HalfFilling p col) (sys : Sys Seed (sites p) MeasData)
    (hsys : sysOf mc p = some sys) : ParticleHole sys (sublattice p col) := by
  have h2 := hv.nx
  have h3 := hv.ny
  unfold sysOf at hsys
  simp only [Option.bind_eq_bind] at hsys
  obtain ⟨K, hK, hsys⟩ := Option.bind_eq_some_iff.1 hsys
  obtain ⟨hs, -, hsys⟩ := Option.bind_eq_some_iff.1 hsys
  obtain rfl := Option.some.inj hsys
  exact colored_particleHole col p.Norb.toNat p.Nx.toNat p.Ny.toNat (by omega) (by omega) p.pbcShift hg.shift p.t hh.fits
    p.eps p.mu p.dt hh.eps _ _ K hK rfl rfl

/-- the sum of the signs and the arrays of a half filled system -/
def HalfFilledData (p : SimParams ℝ) (col : Coloring) (m : EqData) : Prop :=
  HalfFilled p.Nx.toNat p.Ny.toNat p.Norb.toNat p.pbcShift (sublattice p col) m.sign m.arr

/-- C96: the relations hold at the end of every run of a half filled system if they hold at its start, in particular
after a fresh start; and every sample has sign +1 -/
theorem run_half_filling [NeZero (sites p)] (hmc : mc.Rounds) (hv : Admissible p) (hg : Guards p) (hN : sites p < 2 ^ 31)
    (hh : HalfFilling p col) (fnbase : String) (stop : ℤ → Bool) (it : ℤ) (seed : Seed) (s : ℕ → Fin (sites p) → Fin 2)
    (meas : MeasData) (h0 : HalfFilledData p col meas.eq) (r : LoopResult (State Seed (sites p) MeasData))
    (h : perform (mkSetup mc p fnbase) stop it seed s meas = some r) :
    HalfFilledData p col r.state.meas.eq ∧
    r.state.meas.eq.sign - r.state.meas.eq.nsampl = meas.eq.sign - meas.eq.nsampl := by
  obtain ⟨sys, hsys, hok⟩ := mkSetup_ok hmc hv hg hN hh.phonons fnbase
  obtain ⟨sys', hsys', -, -, hmeas⟩ := sys_defined hmc hv hg.U hg.shift hN fnbase
  obtain rfl : sys' = sys := Option.some.inj (hsys'.symm.trans hsys)
  have h1 := hv.nx
  have h2 := hv.ny
  have hx : 0 < p.Nx.toNat := by omega
  have hy : 0 < p.Ny.toNat := by omega
  have hph := program_particleHole hv hg hh sys' hsys
  rw [perform_eq hok] at h
  have hNN : sites p = p.Nx.toNat * p.Ny.toNat * p.Norb.toNat := by unfold sites; ring
  have hL : (mkSetup mc p fnbase).cfg.L = p.L.toNat := rfl
  rw [← hL] at hmeas
  generalize mkSetup mc p fnbase = su at *
  have hM : MeasInv sys' su.ph su.cfg fun m => HalfFilledData p col m.eq ∧
      m.eq.sign - m.eq.nsampl = meas.eq.sign - meas.eq.nsampl := by
    refine samples_inv hx hy hNN hg.shift hmeas hok.phonons (fun m => HalfFilledData p col m ∧
      m.sign - m.nsampl = meas.eq.sign - meas.eq.nsampl) fun s l Gu Gd e m _ hE he hm => ?_
    have hs := sign_half_filling _ hph hok.ok.hs hE
    have hf := he.halfFilled hx hy hph.sq (green_half_filling _ hph hok.ok.hs hE)
    have ha := hm.1.add hf 1
    have hb := hm.2
    rw [hs]
    simp only [Int.cast_one]
    simp only [mul_one] at ha
    refine ⟨ha, ?_⟩
    push_cast
    linarith
  have hX : su.cfg.usePhonons = true → ∀ l < su.cfg.L, ∀ i,
      su.expX0 l i = sys'.expOf su.ph (unflat fun _ => 0) l i :=
    fun hu => absurd hu (by rw [hok.phonons]; simp)
  exact (simulate_inv hok.ok hok.L hok.dvd _ hM stop it seed s _ _ _ meas hX ⟨h0, rfl⟩ r h).2

/-- C96 for the files: after a fresh start of a half filled system, for every seed and number of iterations, with or
without an interruption, the two densities of every orbital in the files add up to the sign in the file, which is the
number of samples or, in a complete run that has measured, one -/
theorem files_half_filling [NeZero (sites p)] (hmc : mc.Rounds) (hv : Admissible p) (hg : Guards p) (hN : sites p < 2 ^ 31)
    (hh : HalfFilling p col) (fnbase : String) (inp : RunInput) (hc : inp.Clean) (fs fs1 : FS) (code : ℤ)
    (hfs : searchCheckpoint fs fnbase ≠ 0) (h : process (mkSetup mc p fnbase) inp fs = some (fs1, code)) :
    ∃ (w : ℝ) (n : ℕ) (a : EqF → ℤ → ℝ), fs1 (fnbase ++ "_eqlt_sign.dat") = some (encDouble w) ∧
      fs1 (fnbase ++ "_eqlt_nsampl.dat") = some (encInt n) ∧
      (∀ f ∈ eqSaveFiles, fs1 (fnbase ++ f.2) = some (encArray encDouble
        (EqF.size p.Norb.toNat (p.Nx.toNat * p.Ny.toNat) f.1).toNat fun i => a f.1 i)) ∧
      HalfFilled p.Nx.toNat p.Ny.toNat p.Norb.toNat p.pbcShift (sublattice p col) w a ∧
      (w = n ∨ w = n / n) := by
  obtain ⟨r, h1, h2, h3, h4⟩ := results_eq hc (startup_fresh (mkSetup mc p fnbase) fs hfs) h
  have h0 : HalfFilledData p col (MeasData.allocate (mkSetup mc p fnbase).maxNsampl).eq := HalfFilled.zero _ _ _ _ _
  obtain ⟨k1, k2⟩ := run_half_filling hmc hv hg hN hh fnbase inp.stop _ _ _ _ h0 r h1
  have k2' : r.state.meas.eq.sign = r.state.meas.eq.nsampl := by
    have e : r.state.meas.eq.sign - r.state.meas.eq.nsampl = 0 - ((0 : ℕ) : ℝ) := k2
    rw [Nat.cast_zero, sub_zero] at e
    linarith
  refine ⟨_, _, fun f z => avg (r.iteration = (mkSetup mc p fnbase).total) r.state.meas.eq.nsampl
    (r.state.meas.eq.arr f z), h3, h2, h4, ?_, ?_⟩
  · unfold avg
    split
    · exact k1.div _
    · exact k1
  · unfold avg
    rw [k2']
    split
    · exact Or.inr rfl
    · exact Or.inl rfl

/-! ## A small system -/

/-- with one time slice all weights are positive -/
theorem weight_one_slice (hmc : mc.Rounds) (hv : Admissible p) (hg : Guards p) (hN : sites p < 2 ^ 31)
    (sys : Sys Seed (sites p) MeasData) (hsys : sysOf mc p = some sys) (s : ℕ → Fin (sites p) → Fin 2) :
    sys.weight 1 s (fun _ _ => 1) ≠ 0 := by
  obtain ⟨sys', e1, e2, -⟩ := sys_defined (mc := mc) hmc hv hg.U hg.shift hN ""
  obtain rfl : sys = sys' := Option.some.inj (hsys.symm.trans e1)
  have hx := hv.nx
  have hy := hv.ny
  have hpd : sys.expK.PosDef := by
    obtain ⟨T, K, -, hK, -, -, -, -, -, -, hpd, -⟩ := Kinetic.kinetic_exponentials p.Norb.toNat p.Nx.toNat
      p.Ny.toNat (by omega) (by omega) p.pbcShift hg.shift p.t p.eps p.mu p.dt (mc.es _)
    unfold sysOf at hsys
    simp only [Option.bind_eq_bind] at hsys
    obtain ⟨a, ha, hsys⟩ := Option.bind_eq_some_iff.1 hsys
    obtain ⟨b, -, hsys⟩ := Option.bind_eq_some_iff.1 hsys
    obtain rfl := Option.some.inj hsys
    obtain rfl : K = a := Option.some.inj (hK.symm.trans ha)
    exact hpd
  have key : ∀ expV : Fin 2 → ℕ → ℝ, (∀ v i, 0 < expV v (sys.orb i)) →
      (1 + sys.flow expV 1 s fun _ _ => 1).det ≠ 0 := by
    intro expV hV
    set d : Fin (sites p) → ℝ := fun i => expV (s 0 i) (sys.orb i) with hd
    have hd0 : ∀ i, d i ≠ 0 := fun i => (hV _ i).ne'
    have e : 1 + sys.flow expV 1 s (fun _ _ => 1) = Matrix.diagonal d * (Matrix.diagonal (fun i => (d i)⁻¹) + sys.expK) := by
      rw [Matrix.mul_add, Matrix.diagonal_mul_diagonal]
      simp only [mul_inv_cancel₀ (hd0 _), Matrix.diagonal_one]
      congr 1
      simp [Sys.flow, TimeFlow.cyclicProd, TimeFlow.prodSeq, Sys.fieldB, hd]
    rw [e, Matrix.det_mul, Matrix.det_diagonal]
    refine mul_ne_zero (Finset.prod_ne_zero_iff.2 fun i _ => hd0 i) (Matrix.PosDef.det_pos ?_).ne'
    exact (Matrix.PosDef.diagonal fun i => inv_pos.2 (hV _ i)).add hpd
  unfold Sys.weight
  simp only [ne_eq, abs_eq_zero, mul_eq_zero, not_or]
  exact ⟨key _ fun v i => ((e2.hs i).pos v).1, key _ fun v i => ((e2.hs i).pos v).2⟩

/-- two by two sites with hopping, `U = 4`, one time slice, two iterations -/
noncomputable def exHalf : SimParams ℝ :=
  { exP with Nx := 2, Ny := 2, t := ⟨fun _ => 0, fun _ => 1, fun _ => 1, fun _ => 0, fun _ => 0⟩ }

theorem exHalf_admissible : Admissible exHalf := by
  constructor <;> first | (intros; rfl) | (intros; left; rfl) | decide

theorem exHalf_guards : Guards exHalf := by
  refine ⟨fun o _ => ?_, le_refl 0, fun h => Bool.noConfusion h, fun h => absurd h (lt_irrefl 0)⟩
  norm_num [exHalf, exP]

theorem exHalf_half : HalfFilling exHalf checkerboard :=
  ⟨checkerboard_fits (by decide) (by decide) (by decide) (fun _ => rfl) (fun _ => rfl) (fun _ => rfl), fun _ _ => rfl, rfl⟩

instance : NeZero (sites exHalf) := ⟨by decide⟩

/-- non-vacuity: its runs end, and their files contain densities that add up to the sign -/
example (mc : Machine) (hmc : mc.Rounds) (inp : RunInput) (hc : inp.Clean) (fs : FS)
    (hfs : searchCheckpoint fs "x" ≠ 0) : ∃ fs1 code, process (mkSetup mc exHalf "x") inp fs = some (fs1, code) ∧
      ∃ (w : ℝ) (a b : ℕ → ℝ), fs1 "x_eqlt_sign.dat" = some (encDouble w) ∧
        fs1 "x_eqlt_density_u.dat" = some (encArray encDouble 1 a) ∧
        fs1 "x_eqlt_density_d.dat" = some (encArray encDouble 1 b) ∧ a 0 + b 0 = w := by
  obtain ⟨⟨fs1, code⟩, h⟩ := fresh_defined_partial hmc exHalf_admissible exHalf_guards (by decide) rfl "x" inp fs hfs
    fun sys h s => weight_one_slice hmc exHalf_admissible exHalf_guards (by decide) sys h s
  obtain ⟨w, n, a, h1, -, h3, h4, -⟩ := files_half_filling hmc exHalf_admissible exHalf_guards (by decide) exHalf_half "x"
    inp hc fs fs1 code hfs h
  exact ⟨fs1, code, h, w, fun i => a .densityU i, fun i => a .densityD i, h1, h3 (.densityU, "_eqlt_density_u.dat") (by decide),
    h3 (.densityD, "_eqlt_density_d.dat") (by decide), h4.density 0 (by decide)⟩

end Verif.Main
