import Verif.Props.Rounded
import Verif.Props.RoundedUneqClose

/-! # Property C117: the program with unequal time measurements in rounded arithmetic -/

set_option autoImplicit false

namespace Verif.Rounded

open MeasureTheory Filter Topology Matrix Verif.Lapack Verif.TimeFlow Verif.Greens Verif.Stratonovich Verif.MonteCarlo Verif.Ultra
open Verif.Fock Verif.Measurement Verif.Main Verif.Progress Verif.Random Verif.Params Verif.Rough

variable {σ : Type} {N : ℕ} {M : Type}

/-! ## Specification -/

/-- As `Accurate`, for programs which also call BLAS and LAPACK for rectangular matrices with at most `S` rows and columns: the
quotients of two recorded quantities, computed in rounded arithmetic from beginning to end, come as close to `T` as desired. -/
def AccurateAll [NeZero N] [MeasurableSpace σ] (P : Measure σ) (sys : Sys σ N M) (cfg : Cfg) (S : ℕ)
    (ms : Arith N → BlockArith → Meas N M) (φ ψ : M → ℝ) (T : ℝ) : Prop :=
  ∀ (k : ℕ) (ε : ℝ), 0 < ε → ∃ u₀ K, 0 < u₀ ∧ 0 < K ∧
    ∀ (u : ℝ) (ar : Arith N) (bl : BlockArith) (tab : Tables N) (n : ℕ), 0 ≤ u → ar.Within k u → bl.Within S k u →
      tab.Within sys u → 0 < n → (cfg.nequil.toNat + n) * u ≤ u₀ →
      ∀ (s : ℕ → Fin N → Fin 2) (meas : M), φ meas = 0 → ψ meas = 0 → ∃ v, start ar sys cfg tab s meas = some v ∧
        ∀ p : Prog, P.real {r | ¬ ∃ R, simLoop (roughBody (numerics ar sys cfg tab (ms ar bl)) sys.rng cfg.L) (fun _ => false)
            (cfg.nequil.toNat + n) 0 ⟨r, s, v⟩ p = some R ∧
          |φ R.state.num.meas / ψ R.state.num.meas - T| < ε} ≤ K / n

/-! ## Proof -/

section main

variable [NeZero N] [MeasurableSpace σ] {P : Measure σ} {sys : Sys σ N MeasData} {cfg : Cfg} {Nx Ny Norb : ℕ} {shift : ℤ}
  {junk : ℤ → ℤ} {dt : ℝ} {omega : ℕ → ℝ} {alg : BlockCyclic.QRs N} {tau : BlockCyclic.Buf} {old : GreensUneq.Arrays}

theorem accurateAll_of_robust [IsProbabilityMeasure P] (h : Sound sys cfg.L) (hL : 0 < cfg.L) (hlen : 0 < cfg.prodBlen)
    (hd : cfg.prodBlen ∣ cfg.L) (h2 : 2 * cfg.prodBlen ≤ cfg.L)
    (hdvd : cfg.prodBlen ∣ sys.nwraps) (hnw : 0 < sys.nwraps) (hnwL : sys.nwraps ≤ cfg.L)
    (hx : 0 < Nx) (hy : 0 < Ny) (hN : N = Nx * Ny * Norb) (hs : 0 ≤ shift)
    (hm : sys.meas = realMeas Norb (Nx * Ny) cfg.L (Maps.construct Nx Ny shift junk) dt omega alg tau old) (r : Fin 2 → Rec) {T : ℝ}
    (hr : Robust P sys cfg (r 0).val (r 1).val T) :
    AccurateAll P sys cfg (N * (cfg.L / cfg.prodBlen))
      (roundMeasAll Norb (Nx * Ny) cfg.L (Maps.construct Nx Ny shift junk) tau old sys.meas) (r 0).val (r 1).val T := by
  intro k ε hε
  have hne : Nonempty σ := by
    by_contra hc
    rw [not_nonempty_iff] at hc
    have := measure_univ (μ := P)
    rw [Set.univ_eq_empty_iff.2 hc, measure_empty] at this
    exact zero_ne_one this
  obtain ⟨u₀, K, h1, h2', h3⟩ := accurate_core (X := BlockArith) (k := k) h hL hlen hd hdvd hnw hnwL r hr
    (fun u bl => bl.Within (N * (cfg.L / cfg.prodBlen)) k u)
    (roundMeasAll Norb (Nx * Ny) cfg.L (Maps.construct Nx Ny shift junk) tau old sys.meas)
    (fun q qu hq η hη => by
      obtain ⟨δ, d1, d2, d3⟩ := measClose h hx hy hN hs hm r hq hη
      obtain ⟨δ', d1', d2', d3'⟩ := uneqClose (k := k) h hL hlen hd h2 hx hy hN hs hm r hq le_rfl hη
      refine ⟨min δ δ', lt_min d1 d1', (min_le_left _ _).trans d2, fun ar bl tab u A hu har hbl htab hA hud => ⟨?_, Or.inr ?_⟩⟩
      · intro s l Gu Gd m hl g1 g2 hΦ
        exact d3 ar.toOps (roundMeasAll Norb (Nx * Ny) cfg.L (Maps.construct Nx Ny shift junk) tau old sys.meas ar bl) u A hu har.ops
          rfl (hA.trans (min_le_left _ _)) (hud.trans (min_le_left _ _)) s l Gu Gd m hl
          (g1.mono (min_le_left _ _)) (g2.mono (min_le_left _ _)) hΦ
      · intro s Gu Gd tU tD m g1 g2 hΦ
        exact d3' ar bl tab u A hu har hbl htab (hA.trans (min_le_right _ _)) (hud.trans (min_le_right _ _)) s Gu Gd tU tD m
          (g1.mono (min_le_right _ _)) (g2.mono (min_le_right _ _)) hΦ) hε
  exact ⟨u₀, K, h1, h2', fun u ar bl tab n hu har hbl htab => h3 u ar bl tab n hu har hbl htab⟩

end main

/-! ## The program -/

section program

variable [MeasurableSpace σ] {P : Measure σ} {mc : Machine} {p : SimParams ℝ}

/-- C117: In a run without phonons, with or without unequal time measurements, in an arithmetic with rounding errors from beginning
to end, every result of the equal and unequal time measurements comes close to the expectation value in the Hubbard model. -/
theorem program_rounded_all [NeZero (sites p)] (hmc : mc.Rounds) (hv : Admissible p) (hg : Guards p)
    (hN : sites p < 2 ^ 31) (fnbase : String) (rng : Rng σ) (hlaw : rng.Lawful (sites p))
    (hP : rng.Ideal (sites p) P) (sys : Sys Seed (sites p) MeasData) (hsys : sysOf mc p = some sys)
    (hw : ∀ s, sys.weight p.L.toNat s (fun _ _ => 1) ≠ 0)
    (hr : ∀ i : Fin (sites p), p.U ((i.val / (p.Nx.toNat * p.Ny.toNat) : ℕ) : ℤ) = 0 ∨
      ∀ l < p.L.toNat, ∀ x : Field p.L.toNat (sites p),
        sys.weight p.L.toNat (Fock.extend (flipAt l i x)) (fun _ _ => 1)
          ≠ sys.weight p.L.toNat (Fock.extend x) (fun _ _ => 1))
    (hnq : 0 ≤ p.nequil) (hnw : p.nwraps ≤ p.L) (h2 : 2 * p.prodBlen ≤ p.L) :
    let L := p.L.toNat
    let cfg := (mkSetup mc p fnbase).cfg
    let sys' := sys.withRng rng
    let S := sites p * (L / p.prodBlen.toNat)
    let ms := roundMeasAll p.Norb.toNat (p.Nx.toNat * p.Ny.toNat) L (Maps.construct p.Nx.toNat p.Ny.toNat p.pbcShift mc.maps)
      mc.tau mc.green sys.meas
    (0 < p.neqlt → p.neqlt ≤ p.L →
        EqHolds p.Nx.toNat p.Ny.toNat p.Norb.toNat p.pbcShift 0 (thermalMean (hubbardStep p) L) fun f z v =>
          AccurateAll P sys' cfg S ms (fun m => m.eq.arr f z) (fun m => m.eq.sign) v) ∧
      (0 < p.nuneqlt →
        UneqHolds p.Nx.toNat p.Ny.toNat p.Norb.toNat L p.pbcShift 0 (p.Nx.toNat = 1 ↔ p.Ny.toNat = 1)
          (thermalPair (hubbardStep p) L) fun f z v =>
          AccurateAll P sys' cfg S ms (fun m => m.uneq.arr f z) (fun m => m.uneq.sign) v) := by
  intro L cfg sys' S ms
  have h1 := hv.norb
  have h3 := hv.nx
  have h3' := hv.ny
  have h4 := hv.l
  have h5 := hv.prodBlen
  have h6 := hv.nwraps
  obtain ⟨sys0, e0, hok, -, hmeas⟩ := sys_defined hmc hv hg.U hg.shift hN fnbase
  obtain rfl : sys0 = sys := Option.some.inj (e0.symm.trans hsys)
  have hnwr : sys0.nwraps = p.nwraps.toNat := by
    unfold sysOf at hsys
    simp only [Option.bind_eq_bind] at hsys
    obtain ⟨_, -, hsys⟩ := Option.bind_eq_some_iff.1 hsys
    obtain ⟨_, -, hsys⟩ := Option.bind_eq_some_iff.1 hsys
    rw [← Option.some.inj hsys]
  have hNN : sites p = p.Nx.toNat * p.Ny.toNat * p.Norb.toNat := by unfold sites; ring
  have := hP.prob
  have hso : Sound (sys0.withRng rng) (mkSetup mc p fnbase).cfg.L := ⟨hok.expK, hok.hs, hw⟩
  have hdL : p.prodBlen.toNat ∣ p.L.toNat := by
    have := hv.dvdL
    rwa [← Int.toNat_of_nonneg h5.le, ← Int.toNat_of_nonneg h4.le, Int.natCast_dvd_natCast] at this
  have key := fun (r : Fin 2 → Rec) (T : ℝ) (hrob : Robust P sys' cfg (r 0).val (r 1).val T) =>
    accurateAll_of_robust (tau := mc.tau) (old := mc.green) hso (by show 0 < p.L.toNat; omega) (by show 0 < p.prodBlen.toNat; omega) hdL
      (by show 2 * p.prodBlen.toNat ≤ p.L.toNat; omega) hok.dvd (by show 0 < sys0.nwraps; omega)
      (by show sys0.nwraps ≤ p.L.toNat; omega) (by omega) (by omega) hNN hg.shift hmeas r hrob
  obtain ⟨r1, r2⟩ := program_robust hmc hv hg hN fnbase rng hlaw hP sys0 hsys hw hr hnq
  exact ⟨fun hc hcL => (r1 hc hcL).mono fun f z v hrob => key ![.eqArr f z, .eqSign] v hrob,
    fun hc => (r2 hc).mono fun f z v hrob => key ![.uneqArr f z, .uneqSign] v hrob⟩

end program

end Verif.Rounded
