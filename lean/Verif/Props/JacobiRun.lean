import Verif.Props.Jacobi
import Verif.Props.RoundedPhLong

/-!
# Property C125, second part: the program with elementary operations only

With Jacobi's method as eigenvalue decomposition, all of BLAS and LAPACK is given by algorithms in rounded arithmetic: what remains
as a hypothesis are the relative errors of single operations and of the functions `sqrt`, `exp`, `expm1` and `log`.
-/

set_option autoImplicit false

namespace Verif.Reference

open MeasureTheory Filter Matrix Topology Verif.Lapack Verif.Rounded Verif.Scale Verif.Ultra Verif.MonteCarlo Verif.Greens Verif.Measurement
open Verif.Main Verif.Progress Verif.Random Verif.Params Verif.Rough Verif.Fock Verif.Stratonovich

/-! ## Specification -/

/-- As `AccurateRefRun` for the program with Jacobi's method: a number `n` of sweeps of the program with relative errors `u` of the
scalar functions, and `m` rotations for every eigenvalue decomposition. -/
def AccurateScalarRun {p : SimParams ℝ} [NeZero (sites p)] {σ M : Type} [MeasurableSpace σ] (P : Measure σ) (sys : Sys σ (sites p) M)
    (cfg : Cfg) (ms : Arith (sites p) → BlockArith → Meas (sites p) M) (φ ψ : M → ℝ) (T : ℝ) : Prop :=
  ∀ ε : ℝ, 0 < ε → ∃ (u₀ C : ℝ) (K : ℕ), 0 < u₀ ∧ 0 < C ∧
    ∀ (u : ℝ) (sc : Scalars) (m : ℕ) (piv : Mat (sites p) → Equiv.Perm (Fin (sites p))) (n : ℕ), sc.Relative u →
      (1 - 1 / (sites p : ℝ) ^ 2) ^ m ≤ u → 0 < n → (cfg.nequil.toNat + n : ℝ) ^ K * ((m + 1) * u) ≤ u₀ →
      let ar := refArith sc.toFlOps piv
      ∃ tab, tables p (refPlatform (jacobiLib (sites p) sc m) piv) = some tab ∧
        ∀ (s : ℕ → Fin (sites p) → Fin 2) (meas : M), φ meas = 0 → ψ meas = 0 → ∃ v, start ar sys cfg tab s meas = some v ∧
          ∀ pr : Prog, P.real {r | ¬ ∃ R, simLoop (roughBody (numerics ar sys cfg tab (ms ar (refBlocks sc.toFlOps))) sys.rng cfg.L)
              (fun _ => false) (cfg.nequil.toNat + n) 0 ⟨r, s, v⟩ pr = some R ∧
            |φ R.state.num.meas / ψ R.state.num.meas - T| < ε} ≤ C / n

/-! ## Proof -/

variable {σ : Type} [MeasurableSpace σ] {P : Measure σ} {mc : Machine} {p : SimParams ℝ}

theorem accurateScalarRun_of_ref [NeZero (sites p)] {M : Type} {sys : Sys σ (sites p) M} {cfg : Cfg}
    {ms : Arith (sites p) → BlockArith → Meas (sites p) M} {φ ψ : M → ℝ} {T : ℝ} (h : AccurateRefRun P sys cfg ms φ ψ T) :
    AccurateScalarRun P sys cfg ms φ ψ T := by
  intro ε hε
  obtain ⟨k, hk0, hk⟩ := jacobiLib_relative (sites p)
  obtain ⟨u₀, C, K, hu₀, hC, H⟩ := h k ε hε
  have hkp : (0 : ℝ) < k := by exact_mod_cast Nat.pos_of_ne_zero hk0
  set c := min 1 u₀ with hc
  have hc0 : 0 < c := by positivity
  refine ⟨c ^ k / k, C, K * k, by positivity, hC, fun u sc m piv n hs hm hn hle => ?_⟩
  have hu := hs.ops.nonneg
  obtain ⟨e, ha, he⟩ := accuracy_exists k hk0 (show 0 ≤ (m + 1) * u by positivity)
  rw [le_div_iff₀ hkp] at hle
  set q : ℝ := (cfg.nequil.toNat + n : ℝ) with hq
  have hq1 : 1 ≤ q := by
    have : (1 : ℝ) ≤ n := by exact_mod_cast hn
    have := Nat.cast_nonneg (α := ℝ) cfg.nequil.toNat
    linarith
  have hqe : q ^ K * e ≤ c := le_of_pow_le_pow_left₀ (n := k) hk0 hc0.le (by
    rw [mul_pow, he, ← pow_mul]
    linarith [mul_assoc (q ^ (K * k)) ((m + 1) * u) k, mul_comm ((m + 1) * u) (k : ℝ)])
  have he1 : e ≤ 1 := by
    have h1 := le_mul_of_one_le_left ha.nonneg (one_le_pow₀ hq1 (n := K))
    exact h1.trans (hqe.trans (min_le_left _ _))
  exact H e (jacobiLib (sites p) sc m) piv n (hk sc u e m hs hm ha.nonneg he1 ha.le).2 hn (hqe.trans (min_le_right _ _))

/-- C125: The whole program without phonons in rounded arithmetic, with algorithms for all calls of BLAS and LAPACK: if the relative
errors of the single operations are small enough for the number of sweeps, then every result of the equal and unequal time measurements
comes close to the expectation value in the Hubbard model. -/
theorem program_scalar_run [NeZero (sites p)] (hmc : mc.Rounds) (hv : Admissible p) (hg : Guards p)
    (hN : sites p < 2 ^ 31) (fnbase : String) (rng : Rng σ) (hlaw : rng.Lawful (sites p))
    (hP : rng.Ideal (sites p) P) (sys : Sys Seed (sites p) MeasData) (hsys : sysOf mc p = some sys)
    (hw : ∀ s, sys.weight p.L.toNat s (fun _ _ => 1) ≠ 0)
    (hr : ∀ i : Fin (sites p), p.U ((i.val / (p.Nx.toNat * p.Ny.toNat) : ℕ) : ℤ) = 0 ∨
      ∀ l < p.L.toNat, ∀ x : Field p.L.toNat (sites p),
        sys.weight p.L.toNat (Fock.extend (flipAt l i x)) (fun _ _ => 1)
          ≠ sys.weight p.L.toNat (Fock.extend x) (fun _ _ => 1))
    (hnq : 0 ≤ p.nequil) (hnw : p.nwraps ≤ p.L) (h2 : 2 * p.prodBlen ≤ p.L) :
    let L := p.L.toNat
    let cfg := (mkSetup mc p fnbase).cfg
    let sys' := sys.withRng rng
    let ms := roundMeasAll p.Norb.toNat (p.Nx.toNat * p.Ny.toNat) L (Maps.construct p.Nx.toNat p.Ny.toNat p.pbcShift mc.maps)
      mc.tau mc.green sys.meas
    (0 < p.neqlt → p.neqlt ≤ p.L →
        EqHolds p.Nx.toNat p.Ny.toNat p.Norb.toNat p.pbcShift 0 (thermalMean (hubbardStep p) L) fun f z v =>
          AccurateScalarRun P sys' cfg ms (fun m => m.eq.arr f z) (fun m => m.eq.sign) v) ∧
      (0 < p.nuneqlt →
        UneqHolds p.Nx.toNat p.Ny.toNat p.Norb.toNat L p.pbcShift 0 (p.Nx.toNat = 1 ↔ p.Ny.toNat = 1)
          (thermalPair (hubbardStep p) L) fun f z v =>
          AccurateScalarRun P sys' cfg ms (fun m => m.uneq.arr f z) (fun m => m.uneq.sign) v) := by
  intro L cfg sys' ms
  obtain ⟨h3, h4⟩ := program_reference_run hmc hv hg hN fnbase rng hlaw hP sys hsys hw hr hnq hnw h2
  exact ⟨fun a b => (h3 a b).mono fun f z v h => accurateScalarRun_of_ref h,
    fun a => (h4 a).mono fun f z v h => accurateScalarRun_of_ref h⟩

/-- for every small `u` there is a number of rotations which is large enough, and small compared to `1 / u` -/
theorem rotations_exist {N : ℕ} (hN : 0 < N) : ∃ u₁ : ℝ, 0 < u₁ ∧ ∀ u : ℝ, 0 < u → u ≤ u₁ →
    ∃ m : ℕ, (1 - 1 / (N : ℝ) ^ 2) ^ m ≤ u ∧ (m + 1 : ℝ) ^ 2 * u ≤ 1 := by
  set r : ℝ := max (shrink N) (1 / 2) with hr
  have hr0 : 0 < r := lt_of_lt_of_le (by norm_num) (le_max_right _ _)
  have hr1 : r < 1 := max_lt (shrink_lt_one hN) (by norm_num)
  have ht : Tendsto (fun n : ℕ => (n : ℝ) ^ 2 * r ^ n) atTop (𝓝 0) :=
    tendsto_pow_const_mul_const_pow_of_abs_lt_one 2 (by rwa [abs_of_pos hr0])
  obtain ⟨M, hM⟩ := eventually_atTop.1 ((ht.eventually (gt_mem_nhds (show (0 : ℝ) < 1 / 9 by norm_num))).and (eventually_ge_atTop 1))
  refine ⟨r ^ (M + 1), by positivity, fun u hu hle => ?_⟩
  have hex : ∃ m : ℕ, r ^ m ≤ u := by
    obtain ⟨m, hm⟩ := exists_pow_lt_of_lt_one hu hr1
    exact ⟨m, hm.le⟩
  classical
  refine ⟨Nat.find hex, (pow_le_pow_left₀ (shrink_nonneg N) (le_max_left _ _) _).trans (Nat.find_spec hex), ?_⟩
  have h1 : M + 1 ≤ Nat.find hex := by
    by_contra hlt
    push Not at hlt
    have h2 := (Nat.find_spec hex).trans hle
    have h3 := pow_lt_pow_right_of_lt_one₀ hr0 hr1 hlt
    linarith
  obtain ⟨j, hj⟩ : ∃ j, Nat.find hex = j + 1 := ⟨Nat.find hex - 1, by omega⟩
  have h4 : u < r ^ j := by
    have := Nat.find_min hex (m := j) (by omega)
    exact not_le.1 this
  obtain ⟨h5, h6⟩ := hM j (by omega)
  rw [hj]
  push_cast
  have h7 : (1 : ℝ) ≤ j := by exact_mod_cast h6
  have h8 : ((j : ℝ) + 1 + 1) ^ 2 ≤ 9 * (j : ℝ) ^ 2 := by nlinarith
  calc ((j : ℝ) + 1 + 1) ^ 2 * u ≤ 9 * (j : ℝ) ^ 2 * r ^ j := mul_le_mul h8 h4.le hu.le (by positivity)
    _ ≤ 1 := by linarith [mul_assoc (9 : ℝ) ((j : ℝ) ^ 2) (r ^ j)]

/-- non-vacuity: one site with interaction and two time slices, and unequal time measurements in every sweep -/
example : ∃ mc : Machine, ∃ sys : Sys Seed (sites exU) MeasData, mc.Rounds ∧ sysOf mc exU = some sys ∧
    ∃ T, AccurateScalarRun (independent (drawDist (sites exU))) (sys.withRng (idealRng (sites exU))) (mkSetup mc exU "").cfg
      (roundMeasAll 1 1 2 (Maps.construct 1 1 0 mc.maps) mc.tau mc.green sys.meas)
      (fun m => m.uneq.arr .gtau0U 1) (fun m => m.uneq.sign) T := by
  obtain ⟨mc, hmc⟩ := machine_exists
  obtain ⟨sys, hsys, hok, -⟩ := sys_defined hmc exU_admissible exU_guards.U exU_guards.shift (by decide) ""
  have hdiag : ∀ i j, i ≠ j → bondMatrix exU i j = 0 := fun i j h => absurd (Subsingleton.elim (α := Fin 1) i j) h
  obtain ⟨ho, hD⟩ := program_describes exU_admissible exU_guards sys hsys
  obtain ⟨-, hr⟩ := atomic_conditions exU_admissible exU_guards hdiag (by decide) sys hsys
  have key := (program_scalar_run hmc exU_admissible exU_guards (by decide) "" _ (idealRng_lawful _)
    (idealRng_ideal _) sys hsys
    (fun s => weight_one_site hmc exU_admissible exU_guards rfl sys hsys _ s _ fun _ _ => one_pos) (fun i => by
      rcases hr i with h | h
      · left
        rw [← ho i]
        exact (decoupled_iff hD (by norm_num [exU, exP]) i).1 h
      · exact Or.inr h)
    (by decide) (by decide) (by decide)).2 (by decide)
  exact ⟨mc, sys, hmc, hsys, _, key.corr .gtau0U (by simp) 1 0 0 (by decide) (by decide) (by decide) 0 0⟩

end Verif.Reference

namespace Verif.Rounded.Ph

open MeasureTheory Filter Topology Matrix Verif.Lapack Verif.TimeFlow Verif.Greens Verif.Stratonovich Verif.MonteCarlo Verif.Ultra
  Verif.Measurement Verif.Main Verif.Metropolis Verif.DrawSeq Verif.Fock Verif.Progress Verif.Random Verif.Params

open Verif.Reference in
/-- algorithms for all calls of BLAS and LAPACK, with scalar operations and library functions of relative error `u`; Jacobi's method
with a number of rotations which is large enough, and small compared to `1 / u` -/
def Elementary {N : ℕ} [NeZero N] (u : ℝ) (pl : Platform N) (bl : BlockArith) : Prop :=
  ∃ (sc : Scalars) (piv : Mat N → Equiv.Perm (Fin N)) (m : ℕ), sc.Relative u ∧
    (∀ x, 0 < x → |sc.log x - Real.log x| ≤ u * |Real.log x|) ∧ (1 - 1 / (N : ℝ) ^ 2) ^ m ≤ u ∧ (m + 1 : ℝ) ^ 2 * u ≤ 1 ∧
    pl = refPlatform (jacobiLib N sc m) piv ∧ bl = refBlocks sc.toFlOps

open Verif.Reference in
/-- with these algorithms, the requirements of property C124 are met -/
theorem elementary_textbook (N : ℕ) [NeZero N] : ∃ k, ∀ u₀ : ℝ, 0 < u₀ → ∃ u₁ : ℝ, 0 < u₁ ∧
    ∀ (u : ℝ) (pl : Platform N) (bl : BlockArith), u ≤ u₁ → Elementary u pl bl → ∃ u' ≤ u₀, Textbook k u' pl bl := by
  obtain ⟨k, hk0, hk⟩ := jacobiLib_relative N
  have hkp : (0 : ℝ) < k := by exact_mod_cast Nat.pos_of_ne_zero hk0
  refine ⟨k, fun u₀ h0 => ?_⟩
  set c := min 1 u₀ with hc
  have hc0 : 0 < c := by positivity
  refine ⟨(c ^ k / k) ^ 2, by positivity, fun u pl bl hu hE => ?_⟩
  obtain ⟨sc, piv, m, hs, hlog, hm, hmu, rfl, rfl⟩ := hE
  have hu0 := hs.ops.nonneg
  obtain ⟨e, ha, he⟩ := accuracy_exists k hk0 (show 0 ≤ (m + 1) * u by positivity)
  have h1 : (m + 1) * u ≤ c ^ k / k := by
    refine le_of_sq_le_sq (le_trans ?_ hu) (by positivity)
    have := mul_le_mul_of_nonneg_right hmu hu0
    linarith [show ((m + 1) * u) ^ 2 = (m + 1 : ℝ) ^ 2 * u * u by ring]
  rw [le_div_iff₀ hkp] at h1
  have hec : e ≤ c := le_of_pow_le_pow_left₀ (n := k) hk0 hc0.le (by
    rw [he]
    linarith [mul_comm ((m + 1) * u) (k : ℝ)])
  obtain ⟨hue, hR⟩ := hk sc u e m hs hm ha.nonneg (hec.trans (min_le_left _ _)) ha.le
  exact ⟨e, hec.trans (min_le_right _ _), jacobiLib N sc m, piv, hR,
    fun x hx => (hlog x hx).trans (mul_le_mul_of_nonneg_right hue (abs_nonneg _)), rfl, rfl⟩

variable {σ : Type} [MeasurableSpace σ] {P : Measure σ} {mc : Machine} {p : SimParams ℝ}

/-- C125: The whole program with phonons in rounded arithmetic, with algorithms for all calls of BLAS and LAPACK: in long runs with
sufficiently accurate scalar operations, the results are close to the expectation values in the Hubbard-Holstein model with a
probability close to one. -/
theorem program_scalar_converges_ph [NeZero (sites p)] (hmc : mc.Rounds) (hv : Admissible p) (hg : Guards p)
    (hN : sites p < 2 ^ 31) (hmv : Movable p) (fnbase : String) (rng : Rng σ) (hlaw : rng.Lawful (sites p))
    (hP : rng.Ideal (sites p) P) (sys : Sys Seed (sites p) MeasData) (hsys : sysOf mc p = some sys) :
    let L := p.L.toNat
    (0 < p.neqlt → p.neqlt ≤ p.L →
      (EqHolds p.Nx.toNat p.Ny.toNat p.Norb.toNat p.pbcShift 0
        (fun X => holsteinMean p (Measure.dirac 0) L 0 (fun _ => 1) X 1) fun f z v =>
        Reliable mc fnbase rng P sys Elementary (.eq f z) .eqSign v) ∧
      ∀ f ∈ phFields, ∀ o < p.Norb.toNat,
        Reliable mc fnbase rng P sys Elementary (.ph f o) .phSign
          (phValue p.Norb.toNat (p.Nx.toNat * p.Ny.toNat) L p.dt (fun o => p.phonon.omega o)
            (fun F X => holsteinMean p (Measure.dirac 0) L 0 F X 1) o f)) ∧
    (0 < p.nuneqlt →
      UneqHolds p.Nx.toNat p.Ny.toNat p.Norb.toNat L p.pbcShift 0 (p.Nx.toNat = 1 ↔ p.Ny.toNat = 1)
        (fun l X Y => holsteinMean p (Measure.dirac 0) L l (fun _ => 1) X Y) fun f z v =>
        Reliable mc fnbase rng P sys Elementary (.uneq f z) .uneqSign v) := by
  intro L
  obtain ⟨k, hk⟩ := elementary_textbook (sites p)
  obtain ⟨h1, h2⟩ := program_reference_converges_ph hmc hv hg hN hmv fnbase rng hlaw hP sys hsys k
  refine ⟨fun hc hcL => ⟨?_, fun f hf o ho => ?_⟩, fun hc => ?_⟩
  · exact (h1 hc hcL).1.mono fun f z v h => h.mono hk
  · exact ((h1 hc hcL).2 f hf o ho).mono hk
  · exact (h2 hc).mono fun f z v h => h.mono hk

/-! ## Examples -/

open Verif.Reference in
/-- there are such arithmetics of any accuracy which do not compute exactly -/
theorem elementary_exists (N : ℕ) [NeZero N] : ∃ u₁ : ℝ, 0 < u₁ ∧ ∀ u : ℝ, 0 < u → u ≤ u₁ →
    ∃ (pl : Platform N) (bl : BlockArith), Elementary u pl bl ∧ pl.add 1 1 ≠ 2 := by
  obtain ⟨u₁, h1, h⟩ := rotations_exist (Nat.pos_of_ne_zero (NeZero.ne N))
  refine ⟨u₁, h1, fun u hu hle => ?_⟩
  obtain ⟨m, hm, hmu⟩ := h u hu hle
  obtain ⟨lib, hl, h2, h3⟩ := lib_exists_log N 0 hu
  exact ⟨_, _, ⟨{ lib with }, fun _ => 1, m, ⟨hl.ops, hl.exp, hl.expm1⟩, h3, hm, hmu, rfl, rfl⟩, h2⟩

/-- non-vacuity: the small system with phonons satisfies all hypotheses; the density of its first orbital is reliable, and there are
arithmetics of any accuracy which do not compute exactly -/
example : ∃ mc : Machine, ∃ sys : Sys Seed (sites exW) MeasData, ∃ v : ℝ,
    Reliable mc "" (idealRng (sites exW)) (independent (drawDist (sites exW))) sys Elementary (.eq .densityU 0) .eqSign v ∧
    ∃ u₁ : ℝ, 0 < u₁ ∧ ∀ u : ℝ, 0 < u → u ≤ u₁ →
      ∃ (pl : Platform (sites exW)) (bl : BlockArith), Elementary u pl bl ∧ pl.add 1 1 ≠ 2 := by
  obtain ⟨mc, hmc⟩ := machine_exists
  obtain ⟨sys, hsys, -⟩ := sys_defined hmc exW_admissible exW_guards.U exW_guards.shift (by decide) ""
  have hmv : Movable exW := by
    refine ⟨rfl, by decide, Or.inl (by decide), ?_, fun _ _ => ?_, fun _ _ => ?_, ?_, ?_, ?_⟩ <;> norm_num [exW, exQ, exPph, exP]
  have h := program_scalar_converges_ph hmc exW_admissible exW_guards (by decide) hmv "" (idealRng (sites exW)) (idealRng_lawful _)
    (idealRng_ideal _) sys hsys
  exact ⟨mc, sys, _, (h.1 (by decide) (by decide)).1.dens .densityU (by decide) 0 (by decide), elementary_exists _⟩

end Verif.Rounded.Ph
