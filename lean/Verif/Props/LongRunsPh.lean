import Verif.Props.ConvergencePh
import Verif.Props.ExpectedPh

/-! # Property C105: long runs with phonons -/

set_option autoImplicit false

namespace Verif.MonteCarlo

open Matrix MeasureTheory Filter Verif.Lapack Verif.TimeFlow Verif.Fock Verif.Greens Verif.GreensUneq Verif.Measurement
open Verif.Main Verif.Progress Verif.Lattice Verif.MeanErgodic

variable {σ : Type} {N : ℕ}

/-! ## The measured quantities do not depend on entries of the field which have no effect -/

section vary

variable {M : Type} {sys : Sys σ N M} {ph : Phonon} {L : ℕ}

theorem sgnPh_vary (a : Field L N) (x : Conf L N) : sgnPh sys ph L (vary sys a x) = sgnPh sys ph L x := by
  unfold sgnPh signed Sys.flow
  rw [(fieldB_vary _ a x).1, (fieldB_vary _ a x).2]
  rfl

theorem greenPh_vary (l : ℕ) (a : Field L N) (x : Conf L N) :
    greenPh sys ph L l sys.hs.expVu (vary sys a x) = greenPh sys ph L l sys.hs.expVu x ∧
    greenPh sys ph L l sys.hs.expVd (vary sys a x) = greenPh sys ph L l sys.hs.expVd x := by
  unfold greenPh
  rw [(fieldB_vary _ a x).1, (fieldB_vary _ a x).2]
  exact ⟨rfl, rfl⟩

theorem timeGreenPh_vary (a : Field L N) (x : Conf L N) :
    timeGreenPh sys ph L sys.hs.expVu (vary sys a x) = timeGreenPh sys ph L sys.hs.expVu x ∧
    timeGreenPh sys ph L sys.hs.expVd (vary sys a x) = timeGreenPh sys ph L sys.hs.expVd x := by
  unfold timeGreenPh
  rw [(fieldB_vary _ a x).1, (fieldB_vary _ a x).2]
  exact ⟨rfl, rfl⟩

variable {rest : Measure ℝ} [SigmaFinite rest] {Norb : ℕ} {K : Mat N} {U : ℕ → ℝ}

omit [SigmaFinite rest] in
theorem sgnPh_ae : ∀ᵐ x ∂confDist sys ph rest L, |sgnPh sys ph L x| = 1 := by
  filter_upwards [confWeight_ae (sys := sys) (ph := ph) (rest := rest) (L := L)] with x hx
  have h1 : signed sys L (Fock.extend x.1) (sys.expOf ph (extendX x.2)) ≠ 0 := by
    intro h0
    apply hx
    unfold confWeight Sys.fullWeight
    rw [weight_eq, h0, abs_zero, zero_mul]
  unfold sgnPh
  rcases lt_or_gt_of_ne h1 with h | h
  · rw [sign_neg h]
    simp
  · rw [sign_pos h]
    simp

/-- the weights have a finite integral -/
theorem confDist_finite (hS : Sound sys ph rest L) (hD : Describes sys Norb K U ph.dt) :
    IsFiniteMeasure (confDist sys ph rest L) := by
  have h := (HasVal.path hS hD (Tame.const (L := L) (N := N) 1)).1.norm
  have h1 : Integrable (fun _ : Conf L N => (1 : ℝ)) (confDist sys ph rest L) := by
    refine h.congr ?_
    filter_upwards [sgnPh_ae (sys := sys) (ph := ph) (rest := rest) (L := L)] with x hx
    rw [mul_one, Real.norm_eq_abs, hx]
  rcases integrable_const_iff.1 h1 with h0 | h0
  · exact absurd h0 one_ne_zero
  · exact h0

theorem confDist_ne_zero (hS : Sound sys ph rest L) (hD : Describes sys Norb K U ph.dt)
    (hZ : holsteinZ sys ph rest K U L ≠ 0) : confDist sys ph rest L ≠ 0 := by
  intro h0
  have h := (HasVal.path hS hD (Tame.const (L := L) (N := N) 1)).2
  rw [h0, integral_zero_measure, mul_zero] at h
  exact hZ h.symm

end vary

/-! ## Quotients -/

section result

variable [MeasurableSpace σ] {P : Measure σ} [NeZero N] {sys : Sys σ N MeasData} {ph : Phonon} {rest : Measure ℝ}
  [SigmaFinite rest] {cfg : Cfg}
  {Nx Ny Norb : ℕ} {shift : ℤ} {junk : ℤ → ℤ} {dt : ℝ} {omega : ℕ → ℝ}
  {alg : BlockCyclic.QRs N} {tau : BlockCyclic.Buf} {old : GreensUneq.Arrays} {K : Mat N} {U : ℕ → ℝ}
  {Ω : Type} [MeasurableSpace Ω] {ν : Measure Ω} [IsFiniteMeasure ν]

set_option maxHeartbeats 800000 in
/-- quantities to which every measurement after a slice adds an estimate -/
theorem ratio_eq_ph (hP : sys.rng.Ideal N P) (hok : sys.Ok cfg.prodBlen) (hL : 2 ≤ cfg.L)
    (hd : cfg.prodBlen ∣ cfg.L) (hp : cfg.usePhonons = true) (hnq : 0 ≤ cfg.nequil) (hmob : Mobile sys ph rest cfg.L cfg.noHS)
    (hD : Describes sys Norb K U ph.dt) (hS : Sound sys ph rest cfg.L) (hZ : holsteinZ sys ph rest K U cfg.L ≠ 0)
    (h0 : 0 < cfg.neqlt) (h1 : cfg.neqlt ≤ cfg.L) (cnt : Counters) (meas : ℕ → MeasData)
    {ρ : Ω → Conf cfg.L N × σ} {s : Ω → ℕ → Fin N → Fin 2} {X expX : Ω → ℕ → Fin N → ℝ}
    (hst : Start sys ph rest cfg.L P ν ρ s X expX) (R : ℕ → Ω → LoopResult (State σ N MeasData))
    (hR : ∀ n : ℕ, ∀ᵐ ω ∂ν, simulate sys ph { cfg with nsampl := n } (fun _ => false) 0 (ρ ω).2 (s ω) (X ω) (expX ω) cnt
      (meas n) = some (R n ω))
    {φ ψ : MeasData → ℝ} (hφ : ∀ n, φ (meas n) = 0) (hψ : ∀ n, ψ (meas n) = 0) {O : ℕ → Conf cfg.L N → ℝ} {v : ℝ}
    (hO : ∀ l < cfg.L, HasVal sys ph rest U cfg.L (O l) v) (hv : ∀ l < cfg.L, ∀ a x, O l (vary sys a x) = O l x)
    (heq : ∀ (s : ℕ → Fin N → Fin 2) (X : ℕ → Fin N → ℝ) (l : ℕ) (Gu Gd : GreensFn N) (m m1 m2 : MeasData), l < cfg.L →
      Exact sys cfg.L (sys.expOf ph X) s (l + 1) Gu Gd → sys.meas.eq Gu Gd m = some m1 →
      sys.meas.phonon Gu Gd l X m1 = some m2 →
      φ m2 = φ m + sgnPh sys ph cfg.L (fieldOf cfg.L s, pathsOf cfg.L X) * O l (fieldOf cfg.L s, pathsOf cfg.L X) ∧
      ψ m2 = ψ m + sgnPh sys ph cfg.L (fieldOf cfg.L s, pathsOf cfg.L X))
    (hun : ∀ (st : State σ N MeasData) (m' : MeasData), PhInv sys ph cfg.L cfg.prodBlen 0 st →
      sys.meas.uneq (st.Gu.sgndet * st.Gd.sgndet) st.tsmU st.tsmD st.meas = some m' →
        φ m' = φ st.meas ∧ ψ m' = ψ st.meas) :
    TendstoInMeasure ν (fun n ω => φ (R n ω).state.meas / ψ (R n ω).state.meas) atTop
      fun _ => v / holsteinZ sys ph rest K U cfg.L := by
  have hfin := confDist_finite hS hD
  have hμ := confDist_ne_zero hS hD hZ
  have hone : HasVal sys ph rest U cfg.L (fun _ => (1 : ℝ)) (holsteinZ sys ph rest K U cfg.L) :=
    HasVal.path hS hD (Tame.const 1)
  have hk := (inv_pos.2 (pow_pos (stepConst_pos (fun i => U (sys.orb i)) ph.dt) cfg.L)).ne'
  have hu : (confDist sys ph rest cfg.L).real Set.univ ≠ 0 := by
    rw [ne_eq, measureReal_eq_zero_iff, Measure.measure_univ_eq_zero]
    exact hμ
  have hc : (eqTimes cfg.L cfg.neqlt.toNat : ℝ) ≠ 0 := by
    rw [Nat.cast_ne_zero]
    unfold eqTimes
    rw [Finset.card_ne_zero]
    refine ⟨cfg.neqlt.toNat - 1, Finset.mem_filter.2 ⟨Finset.mem_range.2 (by omega), by omega, ?_⟩⟩
    rw [Nat.sub_add_cancel (by omega), Nat.mod_self]
  have t1 := equal_limit (a := (stepConst (fun i => U (sys.orb i)) ph.dt ^ cfg.L)⁻¹ * v) hP hok hL hd hp hnq hmob hμ
    (φ := φ) (q := fun l x => sgnPh sys ph cfg.L x * O l x)
    ⟨fun s X l Gu Gd m m1 m2 hl he e1 e2 => (heq s X l Gu Gd m m1 m2 hl he e1 e2).1,
      fun st m' hi e => by rw [(hun st m' hi e).1, add_zero], fun l hl => (hO l hl).1, integrable_zero _ _ _⟩
    (fun l hl a x => by rw [sgnPh_vary, hv l hl]) (fun l hl => (hO l hl).integral) cnt meas hφ hst R hR
  have t2 := equal_limit (a := (stepConst (fun i => U (sys.orb i)) ph.dt ^ cfg.L)⁻¹ * holsteinZ sys ph rest K U cfg.L)
    hP hok hL hd hp hnq hmob hμ (φ := ψ) (q := fun l x => sgnPh sys ph cfg.L x * 1)
    ⟨fun s X l Gu Gd m m1 m2 hl he e1 e2 => by rw [(heq s X l Gu Gd m m1 m2 hl he e1 e2).2, mul_one],
      fun st m' hi e => by rw [(hun st m' hi e).2, add_zero], fun l hl => hone.1, integrable_zero _ _ _⟩
    (fun l hl a x => by rw [sgnPh_vary]) (fun l hl => hone.integral) cnt meas hψ hst R hR
  have t := inMeasure_div (mul_ne_zero hc (div_ne_zero (mul_ne_zero hk hZ) hu)) t1 t2
  rw [mul_div_mul_left _ _ hc, div_div_div_cancel_right₀ hu, mul_div_mul_left _ _ hk] at t
  refine t.congr' ?_ (ae_eq_refl _)
  filter_upwards [eventually_ge_atTop 1] with n hn
  refine ae_of_all _ fun ω => ?_
  exact mul_div_mul_left _ _ (inv_ne_zero (Nat.cast_ne_zero.2 (by omega)))

set_option maxHeartbeats 800000 in
/-- quantities to which every unequal time measurement adds an estimate -/
theorem ratio_uneq_ph (hP : sys.rng.Ideal N P) (hok : sys.Ok cfg.prodBlen) (hL : 2 ≤ cfg.L)
    (hd : cfg.prodBlen ∣ cfg.L) (hp : cfg.usePhonons = true) (hnq : 0 ≤ cfg.nequil) (hmob : Mobile sys ph rest cfg.L cfg.noHS)
    (hD : Describes sys Norb K U ph.dt) (hS : Sound sys ph rest cfg.L) (hZ : holsteinZ sys ph rest K U cfg.L ≠ 0)
    (h0 : 0 < cfg.nuneqlt) (cnt : Counters) (meas : ℕ → MeasData)
    {ρ : Ω → Conf cfg.L N × σ} {s : Ω → ℕ → Fin N → Fin 2} {X expX : Ω → ℕ → Fin N → ℝ}
    (hst : Start sys ph rest cfg.L P ν ρ s X expX) (R : ℕ → Ω → LoopResult (State σ N MeasData))
    (hR : ∀ n : ℕ, ∀ᵐ ω ∂ν, simulate sys ph { cfg with nsampl := n } (fun _ => false) 0 (ρ ω).2 (s ω) (X ω) (expX ω) cnt
      (meas n) = some (R n ω))
    {φ ψ : MeasData → ℝ} (hφ : ∀ n, φ (meas n) = 0) (hψ : ∀ n, ψ (meas n) = 0) {O : Conf cfg.L N → ℝ} {v : ℝ}
    (hO : HasVal sys ph rest U cfg.L O v) (hv : ∀ a x, O (vary sys a x) = O x)
    (heq : ∀ (s : ℕ → Fin N → Fin 2) (X : ℕ → Fin N → ℝ) (l : ℕ) (Gu Gd : GreensFn N) (m m1 m2 : MeasData), l < cfg.L →
      Exact sys cfg.L (sys.expOf ph X) s (l + 1) Gu Gd → sys.meas.eq Gu Gd m = some m1 →
      sys.meas.phonon Gu Gd l X m1 = some m2 → φ m2 = φ m ∧ ψ m2 = ψ m)
    (hun : ∀ (st : State σ N MeasData) (m' : MeasData), PhInv sys ph cfg.L cfg.prodBlen 0 st →
      sys.meas.uneq (st.Gu.sgndet * st.Gd.sgndet) st.tsmU st.tsmD st.meas = some m' →
        φ m' = φ st.meas + sgnPh sys ph cfg.L (fieldOf cfg.L st.s, pathsOf cfg.L st.X)
          * O (fieldOf cfg.L st.s, pathsOf cfg.L st.X) ∧
        ψ m' = ψ st.meas + sgnPh sys ph cfg.L (fieldOf cfg.L st.s, pathsOf cfg.L st.X)) :
    TendstoInMeasure ν (fun n ω => φ (R n ω).state.meas / ψ (R n ω).state.meas) atTop
      fun _ => v / holsteinZ sys ph rest K U cfg.L := by
  have hfin := confDist_finite hS hD
  have hμ := confDist_ne_zero hS hD hZ
  have hone : HasVal sys ph rest U cfg.L (fun _ => (1 : ℝ)) (holsteinZ sys ph rest K U cfg.L) :=
    HasVal.path hS hD (Tame.const 1)
  have hk := (inv_pos.2 (pow_pos (stepConst_pos (fun i => U (sys.orb i)) ph.dt) cfg.L)).ne'
  have hu : (confDist sys ph rest cfg.L).real Set.univ ≠ 0 := by
    rw [ne_eq, measureReal_eq_zero_iff, Measure.measure_univ_eq_zero]
    exact hμ
  have t1 := unequal_limit hP hok hL hd hp hnq h0 hmob hμ (φ := φ) (qu := fun x => sgnPh sys ph cfg.L x * O x)
    ⟨fun s X l Gu Gd m m1 m2 hl he e1 e2 => by rw [(heq s X l Gu Gd m m1 m2 hl he e1 e2).1, add_zero],
      fun st m' hi e => (hun st m' hi e).1, fun _ _ => integrable_zero _ _ _, hO.1⟩
    (fun a x => by rw [sgnPh_vary, hv]) cnt meas hφ hst R hR
  have t2 := unequal_limit hP hok hL hd hp hnq h0 hmob hμ (φ := ψ) (qu := fun x => sgnPh sys ph cfg.L x * 1)
    ⟨fun s X l Gu Gd m m1 m2 hl he e1 e2 => by rw [(heq s X l Gu Gd m m1 m2 hl he e1 e2).2, add_zero],
      fun st m' hi e => by rw [(hun st m' hi e).2, mul_one], fun _ _ => integrable_zero _ _ _, hone.1⟩
    (fun a x => by rw [sgnPh_vary]) cnt meas hψ hst R hR
  rw [hO.integral] at t1
  rw [hone.integral] at t2
  have t := inMeasure_div (div_ne_zero (mul_ne_zero hk hZ) hu) t1 t2
  rw [div_div_div_cancel_right₀ hu, mul_div_mul_left _ _ hk] at t
  refine t.congr' ?_ (ae_eq_refl _)
  filter_upwards [(multiples_tendsto cfg.nequil.toNat cfg.nuneqlt.toNat (by omega)).eventually (eventually_ge_atTop 1)]
    with n hn
  refine ae_of_all _ fun ω => ?_
  exact mul_div_mul_left _ _ (inv_ne_zero (Nat.cast_ne_zero.2 (by omega)))

/-! ## All entries -/

set_option maxHeartbeats 400000 in
/-- C105, equal times and phonons: in long runs with phonons with ideal random numbers, the quotients of the entries of the
arrays and of the sum of the signs converge in probability to the expectation values in the Hubbard-Holstein model -/
theorem equal_times_converge_ph (hP : sys.rng.Ideal N P) (hok : sys.Ok cfg.prodBlen) (hL : 2 ≤ cfg.L)
    (hd : cfg.prodBlen ∣ cfg.L) (hp : cfg.usePhonons = true) (hnq : 0 ≤ cfg.nequil) (hmob : Mobile sys ph rest cfg.L cfg.noHS)
    (hx : 0 < Nx) (hy : 0 < Ny) (hN : N = Nx * Ny * Norb) (hs : 0 ≤ shift)
    (hm : sys.meas = realMeas Norb (Nx * Ny) cfg.L (Maps.construct Nx Ny shift junk) dt omega alg tau old)
    (hD : Describes sys Norb K U ph.dt) (hS : Sound sys ph rest cfg.L) (hZ : holsteinZ sys ph rest K U cfg.L ≠ 0)
    (h0 : 0 < cfg.neqlt) (h1 : cfg.neqlt ≤ cfg.L) (cnt : Counters) (meas : ℕ → MeasData)
    (hm0 : ∀ n, (meas n).eq = EqData.allocate) (hm1 : ∀ n, ∃ k, (meas n).ph = PhData.allocate k)
    {ρ : Ω → Conf cfg.L N × σ} {s : Ω → ℕ → Fin N → Fin 2} {X expX : Ω → ℕ → Fin N → ℝ}
    (hst : Start sys ph rest cfg.L P ν ρ s X expX) (R : ℕ → Ω → LoopResult (State σ N MeasData))
    (hR : ∀ n : ℕ, ∀ᵐ ω ∂ν, simulate sys ph { cfg with nsampl := n } (fun _ => false) 0 (ρ ω).2 (s ω) (X ω) (expX ω) cnt
      (meas n) = some (R n ω)) :
    (EqHolds Nx Ny Norb shift 0 (fun X => holsteinPair sys ph rest K U cfg.L 0 (fun _ => 1) X 1) fun f z v =>
      TendstoInMeasure ν (fun n ω => (R n ω).state.meas.eq.arr f z / (R n ω).state.meas.eq.sign) atTop fun _ => v) ∧
    ∀ f ∈ phFields, ∀ o < Norb,
      TendstoInMeasure ν (fun n ω => (R n ω).state.meas.ph.arr f o / (R n ω).state.meas.ph.sign) atTop fun _ =>
        phValue Norb (Nx * Ny) cfg.L dt omega (fun F X => holsteinPair sys ph rest K U cfg.L 0 F X 1) o f := by
  have : NeZero cfg.L := ⟨by omega⟩
  have key : ∀ (f : EqF) (z : ℤ) (V : Mat N → Mat N → ℝ) (v : ℝ),
      (∀ U D e, Estimates Nx Ny Norb shift 0 U D e → e f z = V U D) →
      (∀ l < cfg.L, HasVal sys ph rest U cfg.L (fun x => V (greenPh sys ph cfg.L (l + 1) sys.hs.expVu x)
        (greenPh sys ph cfg.L (l + 1) sys.hs.expVd x)) v) →
      TendstoInMeasure ν (fun n ω => (R n ω).state.meas.eq.arr f z / (R n ω).state.meas.eq.sign) atTop
        fun _ => v / holsteinZ sys ph rest K U cfg.L := by
    intro f z V v hV hv
    refine ratio_eq_ph (φ := fun m => m.eq.arr f z) (ψ := fun m => m.eq.sign) hP hok hL hd hp hnq hmob hD hS hZ h0 h1 cnt meas
      hst R hR (fun n => by rw [hm0]; rfl) (fun n => by rw [hm0]; rfl) hv (fun l _ a x => ?_)
      (fun s X l Gu Gd m m1 m2 hl he e1 e2 => ?_) fun st m' hi e => ?_
    · rw [(greenPh_vary _ a x).1, (greenPh_vary _ a x).2]
    · have hh := measure_eq hx hy hN hs hm hl he e1 e2
      obtain ⟨est, h2, h3⟩ := hh.2.2.2.1
      refine ⟨?_, hh.2.1⟩
      rw [h3, hV _ _ _ h2]
    · rw [(measure_uneq hx hy hN hs hm hi e).1]
      exact ⟨rfl, rfl⟩
  refine ⟨⟨fun f hf o ho => ?_, fun f hf o p ho hp dx dy => ?_, fun f hf o ho dx dy => ?_, fun a b => ?_, fun a b => ?_⟩,
    fun f hf o ho => ?_⟩
  · have h := key f o (fun U D => cellAvg (Nx * Ny) fun c => densSpec (equalTime U D) (siteN N (Nx * Ny) o c) f) _
      (fun U D e he => he.dens f hf o ho) fun l hl => HasVal.cellAvg fun c => dens_val hS hD hl _ f hf
    rw [cellAvg_div] at h
    exact h
  · have h := key f _ (fun U D => cellAvg (Nx * Ny) fun c => corrSpec (equalTime U D) (siteN N (Nx * Ny) o c)
      (siteN N (Nx * Ny) p (moveCell Nx Ny shift c dx dy)) f) _
      (fun U D e he => he.corr f (by fin_cases hf <;> simp) o p ho hp dx dy) fun l hl =>
        HasVal.cellAvg fun c => corr_val hS hD hl _ _ f hf
    rw [cellAvg_div] at h
    exact h
  · have h := key f _ (fun U D => cellAvg (Nx * Ny) fun c => pairSpec (equalTime U D) Nx Ny 0 o c
      (moveCell Nx Ny shift c dx dy) f) _ (fun U D e he => he.pair f hf o ho dx dy) fun l hl =>
        HasVal.cellAvg fun c => pair_val hS hD hl _ _ _ _ _ _ f hf
    rw [cellAvg_div] at h
    exact h
  · exact key _ _ (fun U _ => U a b) _ (fun U D e he => he.grfunU a b) fun l hl => green_val hS hD hl a b true
  · exact key _ _ (fun _ D => D a b) _ (fun U D e he => he.grfunD a b) fun l hl => green_val hS hD hl a b false
  · have h := ratio_eq_ph (φ := fun m => m.ph.arr f o) (ψ := fun m => m.ph.sign) hP hok hL hd hp hnq hmob hD hS hZ h0 h1 cnt
      meas hst R hR (fun n => by obtain ⟨k, e⟩ := hm1 n; rw [e]; rfl) (fun n => by obtain ⟨k, e⟩ := hm1 n; rw [e]; rfl)
      (fun l hl => ph_val hS hD hL hl (Nx * Ny) Norb dt omega o f hf)
      (fun l _ a x => by rw [(greenPh_vary _ a x).1, (greenPh_vary _ a x).2]; rfl)
      (fun s X l Gu Gd m m1 m2 hl he e1 e2 => ⟨(measure_eq hx hy hN hs hm hl he e1 e2).2.2.2.2 f hf o ho,
        (measure_eq hx hy hN hs hm hl he e1 e2).2.2.1⟩)
      fun st m' hi e => by
        rw [(measure_uneq hx hy hN hs hm hi e).2.1]
        exact ⟨rfl, rfl⟩
    have e : phValue Norb (Nx * Ny) cfg.L dt omega (fun F X => holstein sys ph rest K U cfg.L 0 F X 1) o f
        / holsteinZ sys ph rest K U cfg.L
        = phValue Norb (Nx * Ny) cfg.L dt omega (fun F X => holsteinPair sys ph rest K U cfg.L 0 F X 1) o f := by
      cases f <;> simp only [phValue, holsteinPair, cellAvg_div, zero_div]
    rw [e] at h
    exact h

/-- C105, unequal times -/
theorem unequal_times_converge_ph (hP : sys.rng.Ideal N P) (hok : sys.Ok cfg.prodBlen) (hL : 2 ≤ cfg.L)
    (hd : cfg.prodBlen ∣ cfg.L) (hp : cfg.usePhonons = true) (hnq : 0 ≤ cfg.nequil) (hmob : Mobile sys ph rest cfg.L cfg.noHS)
    (hx : 0 < Nx) (hy : 0 < Ny) (hN : N = Nx * Ny * Norb) (hs : 0 ≤ shift)
    (hm : sys.meas = realMeas Norb (Nx * Ny) cfg.L (Maps.construct Nx Ny shift junk) dt omega alg tau old)
    (hD : Describes sys Norb K U ph.dt) (hS : Sound sys ph rest cfg.L) (hZ : holsteinZ sys ph rest K U cfg.L ≠ 0)
    (h0 : 0 < cfg.nuneqlt) (cnt : Counters) (meas : ℕ → MeasData) (hm0 : ∀ n, (meas n).uneq = UneqData.allocate)
    {ρ : Ω → Conf cfg.L N × σ} {s : Ω → ℕ → Fin N → Fin 2} {X expX : Ω → ℕ → Fin N → ℝ}
    (hst : Start sys ph rest cfg.L P ν ρ s X expX) (R : ℕ → Ω → LoopResult (State σ N MeasData))
    (hR : ∀ n : ℕ, ∀ᵐ ω ∂ν, simulate sys ph { cfg with nsampl := n } (fun _ => false) 0 (ρ ω).2 (s ω) (X ω) (expX ω) cnt
      (meas n) = some (R n ω)) :
    UneqHolds Nx Ny Norb cfg.L shift 0 (Nx = 1 ↔ Ny = 1)
      (fun l X Y => holsteinPair sys ph rest K U cfg.L l (fun _ => 1) X Y) fun f z v =>
      TendstoInMeasure ν (fun n ω => (R n ω).state.meas.uneq.arr f z / (R n ω).state.meas.uneq.sign) atTop fun _ => v := by
  have key : ∀ (f : UneqF) (z : ℤ) (V : TimeG N → TimeG N → ℝ) (v : ℝ),
      (∀ u d e, UneqEstimates Nx Ny Norb cfg.L shift 0 (Nx = 1 ↔ Ny = 1) u d e → e f z = V u d) →
      HasVal sys ph rest U cfg.L (fun x => V (timeGreenPh sys ph cfg.L sys.hs.expVu x)
        (timeGreenPh sys ph cfg.L sys.hs.expVd x)) v →
      TendstoInMeasure ν (fun n ω => (R n ω).state.meas.uneq.arr f z / (R n ω).state.meas.uneq.sign) atTop
        fun _ => v / holsteinZ sys ph rest K U cfg.L := by
    intro f z V v hV hv
    refine ratio_uneq_ph (φ := fun m => m.uneq.arr f z) (ψ := fun m => m.uneq.sign) hP hok hL hd hp hnq hmob hD hS hZ h0 cnt
      meas hst R hR (fun n => by rw [hm0]; rfl) (fun n => by rw [hm0]; rfl) hv (fun a x => ?_)
      (fun s X l Gu Gd m m1 m2 hl he e1 e2 => ?_) fun st m' hi e => ?_
    · rw [(timeGreenPh_vary a x).1, (timeGreenPh_vary a x).2]
    · rw [(measure_eq hx hy hN hs hm hl he e1 e2).1]
      exact ⟨rfl, rfl⟩
    · have hh := measure_uneq hx hy hN hs hm hi e
      obtain ⟨est, h2, h3⟩ := hh.2.2.2
      refine ⟨?_, hh.2.2.1⟩
      rw [h3, hV _ _ _ h2]
  have ev : ∀ (l : ℕ) (a b : Fin N) (f : UneqF), uvalue (fun l => holstein sys ph rest K U cfg.L l fun _ => 1) l a b f /
      holsteinZ sys ph rest K U cfg.L
      = uvalue (fun l X Y => holsteinPair sys ph rest K U cfg.L l (fun _ => 1) X Y) l a b f := by
    intro l a b f
    cases f <;> simp only [uvalue, holsteinPair, zero_div]
    all_goals
      split
      · rfl
      · rw [neg_div]
  have ep : ∀ (l o c c' : ℕ) (f : UneqF), upairValue (N := N) Nx Ny 0 (fun l => holstein sys ph rest K U cfg.L l fun _ => 1)
      l o c c' f / holsteinZ sys ph rest K U cfg.L
      = upairValue Nx Ny 0 (fun l X Y => holsteinPair sys ph rest K U cfg.L l (fun _ => 1) X Y) l o c c' f := by
    intro l o c c' f
    cases f <;> simp only [upairValue, holsteinPair, zero_div, neg_div]
  constructor
  · intro f hf l o p hl ho hp dx dy
    have h := key f _ (fun u d => cellAvg (Nx * Ny) fun c => ucorrSpec u d l (siteN N (Nx * Ny) o c)
      (siteN N (Nx * Ny) p (moveCell Nx Ny shift c dx dy)) f) _
      (fun u d e he => he.corr f hf l o p hl ho hp dx dy)
      (HasVal.cellAvg fun c => ucorr_val hS hD hl.le _ _ f hf)
    rw [cellAvg_div] at h
    simp only [ev] at h
    exact h
  · intro f hf hb l o hl ho dx dy
    have h := key f _ (fun u d => cellAvg (Nx * Ny) fun c => upairSpec Nx Ny 0 (unequalTime u d l) o c
      (moveCell Nx Ny shift c dx dy) f) _ (fun u d e he => he.pair f hf hb l o hl ho dx dy)
      (HasVal.cellAvg fun c => upair_val hS hD hl.le _ _ _ _ _ _ f hf)
    rw [cellAvg_div] at h
    simp only [ep] at h
    exact h

end result

end Verif.MonteCarlo
