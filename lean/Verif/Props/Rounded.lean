import Verif.Props.RoundedMeasure

/-! # Property C114: the program in rounded arithmetic -/

set_option autoImplicit false

namespace Verif.Rounded

open MeasureTheory Filter Topology Matrix Verif.Lapack Verif.TimeFlow Verif.Greens Verif.Stratonovich Verif.MonteCarlo Verif.Ultra
open Verif.Fock Verif.Measurement Verif.Main Verif.Progress Verif.Random Verif.Params Verif.Rough

variable {σ : Type} {N : ℕ} {M : Type}

/-! ## Specification -/

/-- The quotients of two recorded quantities, computed in rounded arithmetic from beginning to end, come as close to `T` as desired:
for every `ε` there are `u₀` and `K` such that in every arithmetic with errors of at most `u`, and with tables which have errors of
at most `u`, a run of `n` iterations after equilibration does not fail and differs by less than `ε`, except with probability
`K / n`, provided `u` times the number of iterations is at most `u₀`. -/
def Accurate [NeZero N] [MeasurableSpace σ] (P : Measure σ) (sys : Sys σ N M) (cfg : Cfg) (ms : Ops → Meas N M) (φ ψ : M → ℝ)
    (T : ℝ) : Prop :=
  ∀ (k : ℕ) (ε : ℝ), 0 < ε → ∃ u₀ K, 0 < u₀ ∧ 0 < K ∧
    ∀ (u : ℝ) (ar : Arith N) (tab : Tables N) (n : ℕ), 0 ≤ u → ar.Within k u → tab.Within sys u → 0 < n →
      (cfg.nequil.toNat + n) * u ≤ u₀ →
      ∀ (s : ℕ → Fin N → Fin 2) (meas : M), φ meas = 0 → ψ meas = 0 → ∃ v, start ar sys cfg tab s meas = some v ∧
        ∀ p : Prog, P.real {r | ¬ ∃ R, simLoop (roughBody (numerics ar sys cfg tab (ms ar.toOps)) sys.rng cfg.L) (fun _ => false)
            (cfg.nequil.toNat + n) 0 ⟨r, s, v⟩ p = some R ∧
          |φ R.state.num.meas / ψ R.state.num.meas - T| < ε} ≤ K / n

/-! ## Proof -/

section main

variable [NeZero N] [MeasurableSpace σ] {P : Measure σ} {sys : Sys σ N MeasData} {cfg : Cfg} {Nx Ny Norb : ℕ} {shift : ℤ}
  {junk : ℤ → ℤ} {dt : ℝ} {omega : ℕ → ℝ} {alg : BlockCyclic.QRs N} {tau : BlockCyclic.Buf} {old : GreensUneq.Arrays}

/-- runs in rounded arithmetic, whatever else the measurements depend on (`x`) -/
theorem accurate_core [IsProbabilityMeasure P] {X : Type} (h : Sound sys cfg.L) (hL : 0 < cfg.L) (hlen : 0 < cfg.prodBlen)
    (hd : cfg.prodBlen ∣ cfg.L) (hdvd : cfg.prodBlen ∣ sys.nwraps) (hnw : 0 < sys.nwraps) (hnwL : sys.nwraps ≤ cfg.L)
    (r : Fin 2 → Rec) {T : ℝ} (hr : Robust P sys cfg (r 0).val (r 1).val T) {k : ℕ} (W : ℝ → X → Prop)
    (ms : Arith N → X → Meas N MeasData)
    (hcl : ∀ (q : Fin 2 → ℕ → Field cfg.L N → ℝ) (qu : Fin 2 → Field cfg.L N → ℝ),
      (∀ a, Adds sys cfg.L cfg.prodBlen (r a).val (q a) (qu a)) → ∀ η : ℝ, 0 < η → ∃ δ, 0 < δ ∧ δ ≤ η ∧
        ∀ (ar : Arith N) (x : X) (tab : Tables N) (u A : ℝ), 0 ≤ u → ar.Within k u → W u x → tab.Within sys u → (A + 1) * u ≤ δ →
          u ≤ δ → MeasClose sys cfg.L (ms ar x) (fun a => (r a).val) q δ A η ∧
            (cfg.nuneqlt ≤ 0 ∨ UneqClose ar sys tab cfg.L cfg.prodBlen (ms ar x) (fun a => (r a).val) qu δ A η))
    {ε : ℝ} (hε : 0 < ε) : ∃ u₀ K, 0 < u₀ ∧ 0 < K ∧
    ∀ (u : ℝ) (ar : Arith N) (x : X) (tab : Tables N) (n : ℕ), 0 ≤ u → ar.Within k u → W u x → tab.Within sys u → 0 < n →
      (cfg.nequil.toNat + n) * u ≤ u₀ →
      ∀ (s : ℕ → Fin N → Fin 2) (meas : MeasData), (r 0).val meas = 0 → (r 1).val meas = 0 → ∃ v, start ar sys cfg tab s meas = some v ∧
        ∀ p : Prog, P.real {w | ¬ ∃ R, simLoop (roughBody (numerics ar sys cfg tab (ms ar x)) sys.rng cfg.L) (fun _ => false)
            (cfg.nequil.toNat + n) 0 ⟨w, s, v⟩ p = some R ∧
          |(r 0).val R.state.num.meas / (r 1).val R.state.num.meas - T| < ε} ≤ K / n := by
  obtain ⟨q, qu, q', qu', hq, hq', K, hK, hr⟩ := hr
  set ε₁ := min ε 1 with hε₁
  have e1 : 0 < ε₁ := lt_min hε one_pos
  have e2 : ε₁ ≤ 1 := min_le_right _ _
  have e3 : ε₁ ≤ ε := min_le_left _ _
  set η := min 1 (ε₁ / (8 * K)) with hη
  have n1 : 0 < η := lt_min one_pos (by positivity)
  have n2 : η ≤ 1 := min_le_left _ _
  have n3 : K * η ≤ ε₁ / 8 := by
    have : η ≤ ε₁ / (8 * K) := min_le_right _ _
    rw [le_div_iff₀ (by positivity)] at this
    linarith
  let qq : Fin 2 → ℕ → Field cfg.L N → ℝ := ![q, q']
  let qqu : Fin 2 → Field cfg.L N → ℝ := ![qu, qu']
  obtain ⟨δm, m1, m2, hmc⟩ := hcl qq qqu (Fin.forall_fin_two.2 ⟨hq, hq'⟩) η n1
  obtain ⟨Q₁, hQ₁⟩ := (Set.finite_range fun x : Fin 2 × Fin cfg.L × Field cfg.L N => |qq x.1 x.2.1 x.2.2|).bddAbove
  obtain ⟨Q₂, hQ₂⟩ := (Set.finite_range fun x : Fin 2 × Field cfg.L N => |qqu x.1 x.2|).bddAbove
  set Q := max Q₁ Q₂ with hQdef
  have hQ : ∀ a, ∀ l < cfg.L, ∀ x, |qq a l x| ≤ Q := fun a l hl x => (hQ₁ ⟨(a, ⟨l, hl⟩, x), rfl⟩).trans (le_max_left _ _)
  have hQu : ∀ a x, |qqu a x| ≤ Q := fun a x => (hQ₂ ⟨(a, x), rfl⟩).trans (le_max_right _ _)
  have hQ0 : 0 ≤ Q := (abs_nonneg _).trans (hQ 0 0 hL (fieldOf cfg.L fun _ _ => 0))
  obtain ⟨δt, t1, ht⟩ := tracking (k := k) h hL hlen hd hdvd hnw hnwL (fun a => (r a).val) qq qqu hQ hQu m1
  set c : ℝ := cfg.L * (2 * (Q + 1)) + 1 with hc
  have c1 : 1 ≤ c := by
    have : 0 ≤ (cfg.L : ℝ) * (2 * (Q + 1)) := by positivity
    linarith
  refine ⟨min δt (δm / c), K / (ε₁ / 2) ^ 2, lt_min t1 (by positivity), by positivity, ?_⟩
  intro u ar x tab n hu har hx htab hn hun' s meas hφ hψ
  have hu1 : (1 : ℝ) ≤ cfg.nequil.toNat + n := by
    have : (1 : ℝ) ≤ n := by exact_mod_cast hn
    have : (0 : ℝ) ≤ cfg.nequil.toNat := Nat.cast_nonneg _
    linarith
  have hu2 : u ≤ (cfg.nequil.toNat + n) * u := by
    have := mul_le_mul_of_nonneg_right hu1 hu
    linarith
  have hu3 : u ≤ δt := hu2.trans (hun'.trans (min_le_left _ _))
  have hu4 : (cfg.nequil.toNat + n) * u * c ≤ δm := by
    have := hun'.trans (min_le_right δt (δm / c))
    rwa [le_div_iff₀ (by linarith)] at this
  set w : ℝ := (cfg.nequil.toNat + n) * u with hw
  have hw0 : 0 ≤ w := by positivity
  have hu5 : w ≤ w * c := le_mul_of_one_le_right hw0 c1
  set S : ℕ := (cfg.nequil.toNat + n) * cfg.L with hS
  have hA : ((S : ℝ) * (2 * (Q + 1)) + 1) * u ≤ δm := by
    refine le_trans ?_ hu4
    rw [hS, hw, hc]
    push_cast
    nlinarith [hu2]
  obtain ⟨hmc1, hmc2⟩ := hmc ar x tab u _ hu har hx htab hA (by linarith)
  obtain ⟨I, J, htr, hst⟩ := ht ar tab (ms ar x) S η (har.mono hu3) (htab.mono hu3) hmc1 hmc2 n1.le n2
  obtain ⟨v, hv, hI, hvm⟩ := hst s meas (Fin.forall_fin_two.2 ⟨hφ, hψ⟩)
  refine ⟨v, hv, fun p => ?_⟩
  have hK1 : δm + 2 * η ≤ 1 / K := by
    rw [le_div_iff₀ hK]
    have : (δm + 2 * η) * K ≤ (3 * η) * K := mul_le_mul_of_nonneg_right (by linarith) hK.le
    linarith
  have key := hr (Numbers N MeasData) (numerics ar sys cfg tab (ms ar x))
    (fun v => (r 0).val v.meas) (fun v => (r 1).val v.meas) δm (2 * η) I J n m1.le (by linarith) hK1 (htr 0) (htr 1) s v hI
    (by rw [hvm]; exact hφ) (by rw [hvm]; exact hψ) p (ε₁ / 2) hn (by linarith) (by linarith)
  refine (measureReal_mono (fun w hw => ?_)).trans (key.trans (le_of_eq ?_))
  · rintro ⟨R, hR, hd⟩
    refine hw ⟨R, hR, hd.trans_le ?_⟩
    have : K * (δm + 2 * η) ≤ K * (3 * η) := mul_le_mul_of_nonneg_left (by linarith) hK.le
    linarith
  · rw [div_div, mul_comm]

theorem accurate_of_robust [IsProbabilityMeasure P] (h : Sound sys cfg.L) (hL : 0 < cfg.L) (hlen : 0 < cfg.prodBlen)
    (hd : cfg.prodBlen ∣ cfg.L)
    (hdvd : cfg.prodBlen ∣ sys.nwraps) (hnw : 0 < sys.nwraps) (hnwL : sys.nwraps ≤ cfg.L) (hun : cfg.nuneqlt ≤ 0)
    (hx : 0 < Nx) (hy : 0 < Ny) (hN : N = Nx * Ny * Norb) (hs : 0 ≤ shift)
    (hm : sys.meas = realMeas Norb (Nx * Ny) cfg.L (Maps.construct Nx Ny shift junk) dt omega alg tau old) (f : EqF) (z : ℤ) {T : ℝ}
    (hr : Robust P sys cfg (fun m => m.eq.arr f z) (fun m => m.eq.sign) T) :
    Accurate P sys cfg (fun op => roundMeas op Norb (Nx * Ny) (Maps.construct Nx Ny shift junk) sys.meas) (fun m => m.eq.arr f z)
      (fun m => m.eq.sign) T := by
  intro k ε hε
  obtain ⟨u₀, K, h1, h2, h3⟩ := accurate_core (X := Unit) (k := k) h hL hlen hd hdvd hnw hnwL ![.eqArr f z, .eqSign] hr
    (fun _ _ => True) (fun ar _ => roundMeas ar.toOps Norb (Nx * Ny) (Maps.construct Nx Ny shift junk) sys.meas)
    (fun q qu hq η hη => by
      obtain ⟨δ, d1, d2, d3⟩ := measClose h hx hy hN hs hm _ hq hη
      exact ⟨δ, d1, d2, fun ar _ tab u A hu har _ _ hA hud => ⟨d3 ar.toOps _ u A hu har.ops rfl hA hud, Or.inl hun⟩⟩) hε
  exact ⟨u₀, K, h1, h2, fun u ar tab n hu har htab => h3 u ar () tab n hu har trivial htab⟩

end main

/-! ## The program -/

section program

variable [MeasurableSpace σ] {P : Measure σ} {mc : Machine} {p : SimParams ℝ}

/-- C114: In a run without phonons and unequal time measurements, in an arithmetic with rounding errors from beginning to end, every
result comes close to the expectation value in the Hubbard model. -/
theorem program_rounded [NeZero (sites p)] (hmc : mc.Rounds) (hv : Admissible p) (hg : Guards p)
    (hN : sites p < 2 ^ 31) (fnbase : String) (rng : Rng σ) (hlaw : rng.Lawful (sites p))
    (hP : rng.Ideal (sites p) P) (sys : Sys Seed (sites p) MeasData) (hsys : sysOf mc p = some sys)
    (hw : ∀ s, sys.weight p.L.toNat s (fun _ _ => 1) ≠ 0)
    (hr : ∀ i : Fin (sites p), p.U ((i.val / (p.Nx.toNat * p.Ny.toNat) : ℕ) : ℤ) = 0 ∨
      ∀ l < p.L.toNat, ∀ x : Field p.L.toNat (sites p),
        sys.weight p.L.toNat (Fock.extend (flipAt l i x)) (fun _ _ => 1)
          ≠ sys.weight p.L.toNat (Fock.extend x) (fun _ _ => 1))
    (hnq : 0 ≤ p.nequil) (hnw : p.nwraps ≤ p.L) (hc : 0 < p.neqlt) (hcL : p.neqlt ≤ p.L) (hun : p.nuneqlt ≤ 0) :
    EqHolds p.Nx.toNat p.Ny.toNat p.Norb.toNat p.pbcShift 0 (thermalMean (hubbardStep p) p.L.toNat) fun f z v =>
      Accurate P (sys.withRng rng) (mkSetup mc p fnbase).cfg (fun op => roundMeas op p.Norb.toNat (p.Nx.toNat * p.Ny.toNat)
        (Maps.construct p.Nx.toNat p.Ny.toNat p.pbcShift mc.maps) sys.meas) (fun m => m.eq.arr f z) (fun m => m.eq.sign) v := by
  have h1 := hv.norb
  have h2 := hv.nx
  have h3 := hv.ny
  have h4 := hv.l
  have h5 := hv.prodBlen
  have h6 := hv.nwraps
  obtain ⟨sys0, e0, hok, -, hmeas⟩ := sys_defined hmc hv hg.U hg.shift hN fnbase
  obtain rfl : sys0 = sys := Option.some.inj (e0.symm.trans hsys)
  have hnwr : sys0.nwraps = p.nwraps.toNat := by
    unfold sysOf at hsys
    simp only [Option.bind_eq_bind] at hsys
    obtain ⟨_, -, hsys⟩ := Option.bind_eq_some_iff.1 hsys
    obtain ⟨_, -, hsys⟩ := Option.bind_eq_some_iff.1 hsys
    rw [← Option.some.inj hsys]
  have hNN : sites p = p.Nx.toNat * p.Ny.toNat * p.Norb.toNat := by unfold sites; ring
  have := hP.prob
  have hso : Sound (sys0.withRng rng) (mkSetup mc p fnbase).cfg.L := ⟨hok.expK, hok.hs, hw⟩
  have hdL : p.prodBlen.toNat ∣ p.L.toNat := by
    have := hv.dvdL
    rwa [← Int.toNat_of_nonneg h5.le, ← Int.toNat_of_nonneg h4.le, Int.natCast_dvd_natCast] at this
  refine (program_robust hmc hv hg hN fnbase rng hlaw hP sys0 hsys hw hr hnq).1 hc hcL |>.mono fun f z v hrob => ?_
  exact accurate_of_robust hso (by show 0 < p.L.toNat; omega) (by show 0 < p.prodBlen.toNat; omega) hdL hok.dvd
    (by show 0 < sys0.nwraps; omega) (by show sys0.nwraps ≤ p.L.toNat; omega) hun (by omega) (by omega) hNN hg.shift hmeas f z hrob

end program

end Verif.Rounded
