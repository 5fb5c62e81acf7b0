import Verif.Props.ReferenceCalls
import Verif.Props.RoundedTables

/-!
# Property C121: the program with textbook algorithms, from the parameters to the results

The tables of exponentials are computed in rounded arithmetic as well (C115); what remains of LAPACK as a hypothesis is the
accuracy of the eigenvalue decomposition `dsyev`.
-/

set_option autoImplicit false

namespace Verif.Reference

open MeasureTheory Filter Matrix Verif.Lapack Verif.Rounded Verif.Scale Verif.Ultra Verif.MonteCarlo Verif.Greens Verif.Measurement
open Verif.Main Verif.Progress Verif.Random Verif.Params Verif.Rough Verif.Fock Verif.Stratonovich

/-! ## Specification -/

/-- the library functions -/
structure Lib (N : ℕ) extends FlOps where
  exp : ℝ → ℝ
  expm1 : ℝ → ℝ
  /-- `LAPACKE_dsyev('V', 'U', ..)` -/
  syev : Mat N → Mat N × (Fin N → ℝ)

/-- the program linked to the textbook algorithms -/
noncomputable def refPlatform {N : ℕ} (lib : Lib N) (piv : Mat N → Equiv.Perm (Fin N)) : Platform N :=
  { refArith lib.toFlOps piv with
    sqrt := lib.sqrt
    exp := lib.exp
    expm1 := lib.expm1
    gemmT := fun A B => gemmAcc lib.toOps A Bᵀ 0
    syev := lib.syev }

/-- Relative errors of at most `u` for scalar functions; the results of `LAPACKE_dsyev` are close to those of an exact
diagonalisation of a matrix close to the given one. -/
structure Lib.Relative {N : ℕ} (lib : Lib N) (k : ℕ) (u : ℝ) : Prop where
  ops : lib.toFlOps.Relative u
  exp : ∀ x, |lib.exp x - Real.exp x| ≤ u * |Real.exp x|
  expm1 : ∀ x, |lib.expm1 x - (Real.exp x - 1)| ≤ u * |Real.exp x - 1|
  syev : ∀ b A, 1 ≤ b → b * u ≤ 1 → Below b A → ∃ V : Mat N, Vᵀ * V = 1 ∧ Near (u * b ^ k) (lib.syev A).1 V ∧
    Near (u * b ^ k) (V * diagonal (lib.syev A).2 * Vᵀ) (symm A)

/-- As `AccurateRef`, for the tables which the program computes. -/
def AccurateRefRun {p : SimParams ℝ} [NeZero (sites p)] {σ M : Type} [MeasurableSpace σ] (P : Measure σ) (sys : Sys σ (sites p) M)
    (cfg : Cfg) (ms : Arith (sites p) → BlockArith → Meas (sites p) M) (φ ψ : M → ℝ) (T : ℝ) : Prop :=
  ∀ (k : ℕ) (ε : ℝ), 0 < ε → ∃ (u₀ C : ℝ) (K : ℕ), 0 < u₀ ∧ 0 < C ∧
    ∀ (u : ℝ) (lib : Lib (sites p)) (piv : Mat (sites p) → Equiv.Perm (Fin (sites p))) (n : ℕ), lib.Relative k u → 0 < n →
      (cfg.nequil.toNat + n : ℝ) ^ K * u ≤ u₀ →
      let ar := refArith lib.toFlOps piv
      ∃ tab, tables p (refPlatform lib piv) = some tab ∧
        ∀ (s : ℕ → Fin (sites p) → Fin 2) (meas : M), φ meas = 0 → ψ meas = 0 → ∃ v, start ar sys cfg tab s meas = some v ∧
          ∀ pr : Prog, P.real {r | ¬ ∃ R, simLoop (roughBody (numerics ar sys cfg tab (ms ar (refBlocks lib.toFlOps))) sys.rng cfg.L)
              (fun _ => false) (cfg.nequil.toNat + n) 0 ⟨r, s, v⟩ pr = some R ∧
            |φ R.state.num.meas / ψ R.state.num.meas - T| < ε} ≤ C / n

/-! ## Proof -/

theorem blocks_mono {bl : BlockArith} {S k : ℕ} {u u' : ℝ} (h : bl.Within S k u) (hu : u ≤ u') : bl.Within S k u' := by
  have H : ∀ b : ℝ, 1 ≤ b → b ^ k * u' ≤ 1 → b ^ k * u ≤ 1 := fun b hb h => (mul_le_mul_of_nonneg_left hu (by positivity)).trans h
  have E : ∀ b : ℝ, 1 ≤ b → u * b ^ k ≤ u' * b ^ k := fun b hb => mul_le_mul_of_nonneg_right hu (by positivity)
  exact {
    geqrf := fun b A h1 h2 h3 h4 h5 => by
      have := h.geqrf b A h1 h2 h3 (H b h3 h4) h5
      exact ⟨this.refl.mono hu, Near.mono this.eq (E b h3)⟩
    ormqrL := fun b F tau C h1 h2 h3 h4 h5 h6 h7 h8 => Near.mono (h.ormqrL b F tau C h1 h2 h3 h4 (H b h4 h5) h6 h7 h8) (E b h4)
    ormqrR := fun b F tau C h1 h2 h3 h4 h5 h6 h7 h8 => Near.mono (h.ormqrR b F tau C h1 h2 h3 h4 (H b h4 h5) h6 h7 h8) (E b h4)
    trtri := fun b M h1 h2 h3 h4 h5 => Near.mono (h.trtri b M h1 h2 (H b h2 h3) h4 h5) (E b h2)
    trmmL := fun b α T B h1 h2 h3 h4 h5 h6 h7 => Near.mono (h.trmmL b α T B h1 h2 h3 (H b h3 h4) h5 h6 h7) (E b h3)
    trmmR := fun b B T h1 h2 h3 h4 h5 h6 => Near.mono (h.trmmR b B T h1 h2 h3 (H b h3 h4) h5 h6) (E b h3)
    gemmAcc := fun b X Y Z h1 h2 h3 h4 h5 h6 h7 h8 => Near.mono (h.gemmAcc b X Y Z h1 h2 h3 h4 (H b h4 h5) h6 h7 h8) (E b h4) }

theorem platform_within {N k K : ℕ} {lib : Lib N} {piv : Mat N → Equiv.Perm (Fin N)} {u e : ℝ} (h : lib.Relative k u)
    (ha : (refArith lib.toFlOps piv).Within K e) (hu : u ≤ e) (hk : k ≤ K) : (refPlatform lib piv).Within K e where
  arith := ha
  scalar := by
    have H : ∀ {a b : ℝ}, a ≤ u * |b| → a ≤ e * |b| := fun h => h.trans (mul_le_mul_of_nonneg_right hu (abs_nonneg _))
    exact ⟨fun a b => H (h.ops.add a b), fun a b => H (h.ops.sub a b), fun a b => H (h.ops.mul a b), fun a b => H (h.ops.div a b),
      fun x => H ((h.ops.sqrt x).trans_eq (by rw [abs_of_nonneg (Real.sqrt_nonneg x)])), fun x => H (h.exp x), fun x => H (h.expm1 x)⟩
  gemmT := fun b A B hb hbe hA hB => ha.gemm b A Bᵀ hb hbe hA fun i j => hB j i
  syev := fun b A hb hbe hA => by
    have hb0 : 0 ≤ b := by linarith
    have E : u * b ^ k ≤ e * b ^ K := mul_le_mul hu (pow_le_pow_right₀ hb hk) (by positivity) (h.ops.nonneg.trans hu)
    obtain ⟨V, h1, h2, h3⟩ := h.syev b A hb ((mul_le_mul_of_nonneg_left hu hb0).trans hbe) hA
    exact ⟨V, h1, Near.mono h2 E, Near.mono h3 E⟩

variable {σ : Type} [MeasurableSpace σ] {P : Measure σ} {mc : Machine} {p : SimParams ℝ}

theorem accurateRefRun_of_all [NeZero (sites p)] (hv : Admissible p) (hg : Guards p) (rng : Rng σ) (sys : Sys Seed (sites p) MeasData)
    (hsys : sysOf mc p = some sys) {cfg : Cfg} {S : ℕ} {ms : Arith (sites p) → BlockArith → Meas (sites p) MeasData}
    {φ ψ : MeasData → ℝ} {T : ℝ} (h : AccurateAll P (sys.withRng rng) cfg S ms φ ψ T) :
    AccurateRefRun P (sys.withRng rng) cfg ms φ ψ T := by
  intro k₁ ε hε
  obtain ⟨k, hk⟩ := refArith_within (sites p)
  obtain ⟨l, hl⟩ := refBlocks_within S
  set K := k + l + k₁ + 1 with hK
  obtain ⟨u₀, C, hu₀, hC, H⟩ := h K ε hε
  obtain ⟨D, δ, hD, hδ, ht⟩ := tables_close hv hg rng sys hsys K
  have hD0 : 0 < D := by linarith
  have hp : (0 : ℝ) < K := by exact_mod_cast Nat.succ_pos _
  set c := min 1 (min (u₀ / D) (δ / 2)) with hc
  have hc0 : 0 < c := by positivity
  refine ⟨c ^ K / K, C, K, by positivity, hC, fun u lib piv n ho hn hs => ?_⟩
  have hu := ho.ops.nonneg
  obtain ⟨e, ha, he⟩ := accuracy_exists K (by omega) hu
  rw [le_div_iff₀ hp] at hs
  set q : ℝ := (cfg.nequil.toNat + n : ℝ) with hq
  have hq1 : 1 ≤ q := by
    have : (1 : ℝ) ≤ n := by exact_mod_cast hn
    have := Nat.cast_nonneg (α := ℝ) cfg.nequil.toNat
    linarith
  have hqe : q * e ≤ c := le_of_pow_le_pow_left₀ (n := K) (by omega) hc0.le (by
    rw [mul_pow, he]
    linarith [mul_assoc (q ^ K) u K, mul_comm u (K : ℝ)])
  have h1 : q * e ≤ 1 := hqe.trans (min_le_left _ _)
  have h2 : q * (D * e) ≤ u₀ := by
    have := hqe.trans ((min_le_right _ _).trans (min_le_left _ _))
    rw [le_div_iff₀ hD0] at this
    linarith [show q * (D * e) = q * e * D by ring]
  have h3 : e < δ := by
    have := hqe.trans ((min_le_right _ _).trans (min_le_right _ _))
    have := le_mul_of_one_le_left ha.nonneg hq1
    linarith
  have h4 : u ≤ e := by
    refine le_trans ?_ (ha.le_self hq1 h1 (by omega))
    exact le_mul_of_one_le_left hu (by exact_mod_cast Nat.succ_pos _)
  have hA := hk K (by omega) lib.toFlOps u e piv ho.ops ha
  have hB := hl K (by omega) lib.toFlOps u e ho.ops ha
  obtain ⟨tab, htab, hw⟩ := ht e (refPlatform lib piv) ha.nonneg h3 (platform_within ho hA h4 (by omega))
  have hle : e ≤ D * e := le_mul_of_one_le_left ha.nonneg hD
  exact ⟨tab, htab, H (D * e) _ _ tab n (mul_nonneg hD0.le ha.nonneg) (hA.mono hle) (blocks_mono hB hle) hw hn h2⟩

/-- C121: The whole program without phonons in rounded arithmetic, from the parameters to the results, with the textbook algorithms
for all calls of BLAS and LAPACK but `dsyev`: every result of the equal and unequal time measurements comes close to the expectation
value in the Hubbard model. -/
theorem program_reference_run [NeZero (sites p)] (hmc : mc.Rounds) (hv : Admissible p) (hg : Guards p)
    (hN : sites p < 2 ^ 31) (fnbase : String) (rng : Rng σ) (hlaw : rng.Lawful (sites p))
    (hP : rng.Ideal (sites p) P) (sys : Sys Seed (sites p) MeasData) (hsys : sysOf mc p = some sys)
    (hw : ∀ s, sys.weight p.L.toNat s (fun _ _ => 1) ≠ 0)
    (hr : ∀ i : Fin (sites p), p.U ((i.val / (p.Nx.toNat * p.Ny.toNat) : ℕ) : ℤ) = 0 ∨
      ∀ l < p.L.toNat, ∀ x : Field p.L.toNat (sites p),
        sys.weight p.L.toNat (Fock.extend (flipAt l i x)) (fun _ _ => 1)
          ≠ sys.weight p.L.toNat (Fock.extend x) (fun _ _ => 1))
    (hnq : 0 ≤ p.nequil) (hnw : p.nwraps ≤ p.L) (h2 : 2 * p.prodBlen ≤ p.L) :
    let L := p.L.toNat
    let cfg := (mkSetup mc p fnbase).cfg
    let sys' := sys.withRng rng
    let ms := roundMeasAll p.Norb.toNat (p.Nx.toNat * p.Ny.toNat) L (Maps.construct p.Nx.toNat p.Ny.toNat p.pbcShift mc.maps)
      mc.tau mc.green sys.meas
    (0 < p.neqlt → p.neqlt ≤ p.L →
        EqHolds p.Nx.toNat p.Ny.toNat p.Norb.toNat p.pbcShift 0 (thermalMean (hubbardStep p) L) fun f z v =>
          AccurateRefRun P sys' cfg ms (fun m => m.eq.arr f z) (fun m => m.eq.sign) v) ∧
      (0 < p.nuneqlt →
        UneqHolds p.Nx.toNat p.Ny.toNat p.Norb.toNat L p.pbcShift 0 (p.Nx.toNat = 1 ↔ p.Ny.toNat = 1)
          (thermalPair (hubbardStep p) L) fun f z v =>
          AccurateRefRun P sys' cfg ms (fun m => m.uneq.arr f z) (fun m => m.uneq.sign) v) := by
  intro L cfg sys' ms
  obtain ⟨h3, h4⟩ := program_rounded_all hmc hv hg hN fnbase rng hlaw hP sys hsys hw hr hnq hnw h2
  exact ⟨fun a b => (h3 a b).mono fun f z v h => accurateRefRun_of_all hv hg rng sys hsys h,
    fun a => (h4 a).mono fun f z v h => accurateRefRun_of_all hv hg rng sys hsys h⟩

/-! ## Examples -/

/-- library functions with rounding errors which meet the requirements -/
theorem lib_exists (N k : ℕ) {u : ℝ} (hu : 0 < u) : ∃ lib : Lib N, lib.Relative k u ∧ lib.add 1 1 ≠ 2 := by
  obtain ⟨es⟩ := Kinetic.eigensolver_exists N
  have hr : ∀ x : ℝ, |(1 + u) * x - x| ≤ u * |x| := fun x => by
    rw [show (1 + u) * x - x = u * x by ring, abs_mul, abs_of_pos hu]
  refine ⟨{ flOpsSqrt fun x => (1 + u) * x with
            exp := fun x => (1 + u) * Real.exp x
            expm1 := fun x => (1 + u) * (Real.exp x - 1)
            syev := es.run }, ⟨flOpsSqrt_relative hr, fun x => hr _, fun x => hr _, fun b A hb _ _ => ?_⟩, ?_⟩
  · have near : ∀ B : Mat N, Near (u * b ^ k) B B := fun B i j => by
      rw [sub_self, abs_zero]
      positivity
    refine ⟨(es.run A).1, es.orthonormal A, near _, ?_⟩
    show Near _ ((es.run A).1 * diagonal (es.run A).2 * (es.run A).1ᵀ) (symm A)
    rw [← es.diagonalises A]
    exact near _
  · show (1 + u) * (1 + 1) ≠ 2
    intro h
    linarith

/-- non-vacuity: one site with interaction and two time slices, and unequal time measurements in every sweep -/
example : ∃ mc : Machine, ∃ sys : Sys Seed (sites exU) MeasData, mc.Rounds ∧ sysOf mc exU = some sys ∧
    ∃ T, AccurateRefRun (independent (drawDist (sites exU))) (sys.withRng (idealRng (sites exU))) (mkSetup mc exU "").cfg
      (roundMeasAll 1 1 2 (Maps.construct 1 1 0 mc.maps) mc.tau mc.green sys.meas)
      (fun m => m.uneq.arr .gtau0U 1) (fun m => m.uneq.sign) T := by
  obtain ⟨mc, hmc⟩ := machine_exists
  obtain ⟨sys, hsys, hok, -⟩ := sys_defined hmc exU_admissible exU_guards.U exU_guards.shift (by decide) ""
  have hdiag : ∀ i j, i ≠ j → bondMatrix exU i j = 0 := fun i j h => absurd (Subsingleton.elim (α := Fin 1) i j) h
  obtain ⟨ho, hD⟩ := program_describes exU_admissible exU_guards sys hsys
  obtain ⟨-, hr⟩ := atomic_conditions exU_admissible exU_guards hdiag (by decide) sys hsys
  have key := (program_reference_run hmc exU_admissible exU_guards (by decide) "" _ (idealRng_lawful _)
    (idealRng_ideal _) sys hsys
    (fun s => weight_one_site hmc exU_admissible exU_guards rfl sys hsys _ s _ fun _ _ => one_pos) (fun i => by
      rcases hr i with h | h
      · left
        rw [← ho i]
        exact (decoupled_iff hD (by norm_num [exU, exP]) i).1 h
      · exact Or.inr h)
    (by decide) (by decide) (by decide)).2 (by decide)
  exact ⟨mc, sys, hmc, hsys, _, key.corr .gtau0U (by simp) 1 0 0 (by decide) (by decide) (by decide) 0 0⟩

end Verif.Reference
