import Verif.Lemmas.LapackExists
import Verif.Props.Rounded

/-! # Arithmetics which meet the requirements of property C114, and runs in which errors accumulate -/

set_option autoImplicit false

namespace Verif.Rounded

open MeasureTheory Filter Topology Matrix Verif.Lapack Verif.TimeFlow Verif.Greens Verif.Stratonovich Verif.MonteCarlo Verif.Ultra
open Verif.Fock Verif.Measurement Verif.Main Verif.Progress Verif.Random Verif.Params Verif.Rough

variable {σ : Type} {N : ℕ} {M : Type}

/-! ## Rounding after every operation -/

/-- operations whose exact result is rounded by `fl` -/
noncomputable def flOps (fl : ℝ → ℝ) : Ops where
  add x y := fl (x + y)
  sub x y := fl (x - y)
  mul x y := fl (x * y)
  div x y := fl (x / y)
  log x := fl (Real.log x)

/-- rounding with a relative error of at most `u`, as in the IEEE standard as long as numbers neither over- nor underflow -/
theorem flOps_within {fl : ℝ → ℝ} {u : ℝ} (h : ∀ x, |fl x - x| ≤ u * |x|) (hu : 0 ≤ u) : (flOps fl).Within (2 * u) := by
  constructor
  · intro b x y h1 _ hx hy
    refine (h _).trans ?_
    have := mul_le_mul_of_nonneg_left ((abs_add_le x y).trans (add_le_add hx hy)) hu
    linarith
  · intro b x y h1 _ hx hy
    refine (h _).trans ?_
    have := mul_le_mul_of_nonneg_left ((abs_sub x y).trans (add_le_add hx hy)) hu
    linarith
  · intro b x y h1 _ hx hy
    refine (h _).trans ?_
    rw [abs_mul]
    have := mul_le_mul_of_nonneg_left (mul_le_mul hx hy (abs_nonneg _) (by linarith)) hu
    nlinarith [mul_nonneg hu (sq_nonneg b)]
  · intro b x y h1 _ hx hy
    refine (h _).trans ?_
    have h0 : 0 < |y| := by
      rcases (abs_nonneg y).eq_or_lt with e | e
      · rw [← e, mul_zero] at hy
        linarith
      · exact e
    have h2 : |x / y| ≤ b * b := by
      rw [abs_div, div_le_iff₀ h0]
      nlinarith
    have := mul_le_mul_of_nonneg_left h2 hu
    nlinarith [mul_nonneg hu (sq_nonneg b)]

/-! ## Exact BLAS and LAPACK -/

/-- BLAS and LAPACK without errors -/
theorem exact_lapack (op : Ops) : ∃ ar : Arith N, ar.toOps = op ∧ ∀ (k : ℕ) (u : ℝ), 0 ≤ u → op.Within u → ar.Within k u := by
  choose F tau h hb using fun A : Mat N => qr_exists_bounded A
  obtain ⟨lu⟩ := luAlg_exists N
  have near : ∀ (u b : ℝ) (k : ℕ) (A : Mat N), 0 ≤ u → 1 ≤ b → Near (u * b ^ k) A A := fun u b k A hu hb i j => by
    rw [sub_self, abs_zero]
    positivity
  have hqr : ∀ (u b : ℝ) (k : ℕ) (A : Mat N), 0 ≤ u → 1 ≤ b → NearQR u (u * b ^ k) A (F A) (tau A) := fun u b k A hu h1 => by
    refine ⟨fun i => ⟨?_, fun r hr => (hb A i r hr).trans (by norm_num)⟩, ?_⟩
    · rcases (h A).refl i with e | e
      · exact Or.inl e
      · right
        rw [e, sub_self, abs_zero]
        exact hu
    · rw [← (h A).eq]
      exact near u b k A hu h1
  let ar : Arith N :=
    { op with
      nrm2 := fun x => Real.sqrt (x ⬝ᵥ x)
      gemm := fun A B => A * B
      trmm := fun F T => upper F * T
      ger := fun α x y A => A + α • vecMulVec x y
      geqp3 := fun A => (F A, tau A, 1)
      geqrf := fun A => (F A, tau A)
      ormqr := fun F tau C => C * qMat F tau
      ormqrT := fun F tau C => C * (qMat F tau)ᵀ
      getrf := lu.run
      getrs := fun F ipiv G => (pivMat ipiv * unitLower F * upper F)⁻¹ * G }
  refine ⟨ar, rfl, fun k u hu ho => ?_⟩
  refine ⟨ho, fun b A B h1 _ _ _ => near u b k _ hu h1, fun b F T h1 _ _ _ => near u b k _ hu h1,
    fun b α x y A h1 _ _ _ _ _ => near u b k _ hu h1, fun b A h1 _ _ => hqr u b k _ hu h1, fun b A h1 _ _ => hqr u b k _ hu h1,
    fun b F tau C h1 _ _ _ => near u b k _ hu h1, fun b F tau C h1 _ _ _ => near u b k _ hu h1, fun b A h1 _ _ _ => ?_,
    fun b A G h1 _ _ _ hd => ?_⟩
  · show Near _ (pivMat (lu.run A).2 * unitLower (lu.run A).1 * upper (lu.run A).1) A
    rw [← lu.spec A]
    exact near u b k A hu h1
  · show Near _ (A * ((pivMat (lu.run A).2 * unitLower (lu.run A).1 * upper (lu.run A).1)⁻¹ * G)) G
    rw [← lu.spec A, ← Matrix.mul_assoc, Matrix.mul_nonsing_inv, Matrix.one_mul]
    · exact near u b k G hu h1
    · refine isUnit_iff_ne_zero.2 fun e => ?_
      rw [e, abs_zero, mul_zero] at hd
      linarith

/-- the exact tables -/
def exactTables (sys : Sys σ N M) : Tables N := ⟨sys.expK, sys.invExpK, sys.hs⟩

theorem exactTables_within (sys : Sys σ N M) {u : ℝ} (hu : 0 ≤ u) : (exactTables sys).Within sys u := by
  refine ⟨fun i j => ?_, fun i j => ?_, fun v i => ?_, fun v i => ?_, fun v i => ?_⟩ <;>
    simp only [exactTables, sub_self, abs_zero, hu]

/-- the requirements can be met by an arithmetic which is not exact -/
example (k : ℕ) {u : ℝ} (hu : 0 < u) : ∃ ar : Arith N, ar.Within k u ∧ ar.add 1 1 ≠ 2 := by
  obtain ⟨ar, e, h⟩ := exact_lapack (N := N) (flOps fun x => (1 + u / 2) * x)
  refine ⟨ar, h k u hu.le ?_, ?_⟩
  · have := flOps_within (fl := fun x => (1 + u / 2) * x) (u := u / 2) (fun x => by
      rw [show (1 + u / 2) * x - x = u / 2 * x by ring, abs_mul, abs_of_pos (by linarith)]) (by linarith)
    rwa [show 2 * (u / 2) = u by ring] at this
  · have e1 : ar.add 1 1 = (1 + u / 2) * (1 + 1) := by
      rw [e]
      rfl
    rw [e1]
    intro h
    linarith

/-! ## A concrete run -/

/-- one site with interaction and two time slices -/
noncomputable def exR : SimParams ℝ := { exU with nuneqlt := 0 }

theorem exR_admissible : Admissible exR := by
  constructor <;> first | (intros; rfl) | (intros; left; rfl) | (unfold exR exU exP; norm_num; done) |
    exact exP_admissible.itime

theorem exR_guards : Guards exR := by
  refine ⟨fun o _ => ?_, le_refl 0, fun h => Bool.noConfusion h, fun _ => by unfold exR exU exP; norm_num⟩
  norm_num [exR, exU, exP]

instance : NeZero (sites exR) := ⟨by decide⟩

/-- non-vacuity: the density of the site is computed accurately -/
example : ∃ mc : Machine, ∃ sys : Sys Seed (sites exR) MeasData, mc.Rounds ∧ sysOf mc exR = some sys ∧
    ∃ T, Accurate (independent (drawDist (sites exR))) (sys.withRng (idealRng (sites exR))) (mkSetup mc exR "").cfg
      (fun op => roundMeas op exR.Norb.toNat (exR.Nx.toNat * exR.Ny.toNat)
        (Maps.construct exR.Nx.toNat exR.Ny.toNat exR.pbcShift mc.maps) sys.meas)
      (fun m => m.eq.arr .densityU 0) (fun m => m.eq.sign) T := by
  obtain ⟨mc, hmc⟩ := machine_exists
  obtain ⟨sys, hsys, hok, -⟩ := sys_defined hmc exR_admissible exR_guards.U exR_guards.shift (by decide) ""
  have hdiag : ∀ i j, i ≠ j → bondMatrix exR i j = 0 := fun i j h => absurd (Subsingleton.elim (α := Fin 1) i j) h
  obtain ⟨ho, hD⟩ := program_describes exR_admissible exR_guards sys hsys
  obtain ⟨-, hr⟩ := atomic_conditions exR_admissible exR_guards hdiag (by decide) sys hsys
  refine ⟨mc, sys, hmc, hsys, _, (program_rounded hmc exR_admissible exR_guards (by decide) "" _ (idealRng_lawful _)
    (idealRng_ideal _) sys hsys
    (fun s => weight_one_site hmc exR_admissible exR_guards rfl sys hsys _ s _ fun _ _ => one_pos) (fun i => ?_)
    (by decide) (by decide) (by decide) (by decide) (by decide)).dens .densityU (by simp) 0 (by decide)⟩
  rcases hr i with h | h
  · left
    rw [← ho i]
    exact (decoupled_iff hD (by norm_num [exR, exU, exP]) i).1 h
  · exact Or.inr h

/-! ## Runs without recomputation -/

/-- If `nwraps` exceeds the number of time slices, which the program accepts (param_parser.c:448-452), the Green's functions are
never recomputed: every slice keeps the matrices resulting from the wrapping and the updates (monte_carlo.c:125). -/
theorem never_recomputed [NeZero N] {ar : Arith N} {sys : Sys σ N M} {cfg : Cfg} {tab : Tables N} {ms : Meas N M} {L : ℕ}
    (h : L < sys.nwraps) (it : ℤ) (s : ℕ → Fin N → Fin 2) {l : ℕ} (hl : l < L) (v v' : Numbers N M)
    (hf : finish ar sys cfg tab ms it s l v = some v') : v'.Gu = v.Gu ∧ v'.Gd = v.Gd := by
  have hn : ¬ (l + 1) % sys.nwraps = 0 := by
    rw [Nat.mod_eq_of_lt (by omega)]
    omega
  unfold finish at hf
  simp only [if_neg hn, Option.bind_eq_bind, Option.bind_some] at hf
  by_cases hm : effNeqlt cfg it > 0 ∧ (l + 1) % effNeqlt cfg it = 0
  · simp only [if_pos hm] at hf
    obtain ⟨m, -, hf⟩ := Option.bind_eq_some_iff.1 hf
    obtain rfl := Option.some.inj hf
    exact ⟨rfl, rfl⟩
  · simp only [if_neg hm] at hf
    obtain rfl := Option.some.inj hf
    exact ⟨rfl, rfl⟩

/-- the program accepts such parameters -/
example : ∃ p : SimParams ℝ, Admissible p ∧ Guards p ∧ p.L < p.nwraps := by
  refine ⟨{ exR with nwraps := 3 }, ?_, ?_, by decide⟩
  · constructor <;> first | (intros; rfl) | (intros; left; rfl) | (unfold exR exU exP; norm_num; done) |
      exact exP_admissible.itime
  · refine ⟨fun o _ => ?_, le_refl 0, fun h => Bool.noConfusion h, fun _ => by unfold exR exU exP; norm_num⟩
    norm_num [exR, exU, exP]

end Verif.Rounded
