import Verif.Props.FullProgram
import Verif.Props.LongRunsPhProgram

/-!
# Property C111: long runs of the program built with `measurement_full.c`

This build keeps the measurements of every site, every pair of sites and every pair of cells.  In long runs they converge to the
expectation values of the Hubbard model at these sites and of the Hubbard-Holstein model with phonons, respectively.
-/

set_option autoImplicit false

namespace Verif.MonteCarlo

open Matrix MeasureTheory Filter Verif.Lapack Verif.TimeFlow Verif.Fock Verif.Greens Verif.GreensUneq Verif.Measurement
open Verif.Main Verif.Progress Verif.Lattice Verif.Params Verif.Random

variable {σ : Type} {N : ℕ}

/-! ## Specification -/

/-- `R f z v` holds for all entries `z` of the arrays `f` of the equal time measurements, where `v` is the expectation value
`T` of the operator at these sites or cells (all except `ff`, which is not the expectation value of an operator) -/
structure SiteEq [NeZero N] (Nx Ny Norb : ℕ) (T : Op (Mode N) → ℝ) (R : EqF → ℤ → ℝ → Prop) : Prop where
  dens : ∀ f ∈ [EqF.densityU, .densityD, .doubleocc], ∀ a : Fin N, R f a.val (T (densOp a f))
  corr : ∀ f ∈ [EqF.uu, .dd, .zz, .xx, .ud], ∀ a b : Fin N, R f (a.val + N * b.val) (T (corrOp a b f))
  pair : ∀ f ∈ [EqF.scSw, .scDw, .scSx], ∀ o c c' : ℕ, o < Norb → c < Nx * Ny → c' < Nx * Ny →
    R f (c + (Nx * Ny : ℕ) * c' + (Nx * Ny : ℕ) * (Nx * Ny : ℕ) * o) (T (pairsOp Nx Ny 0 o c c' f))
  grfunU : ∀ a b : Fin N, R .grfunU (a.val + N * b.val) (T (ann (a, true) * cre (b, true)))
  grfunD : ∀ a b : Fin N, R .grfunD (a.val + N * b.val) (T (ann (a, false) * cre (b, false)))

/-- the same for the unequal time measurements -/
structure SiteUneq [NeZero N] (Nx Ny Norb L : ℕ) (b1 : Prop) (T : ℕ → Op (Mode N) → Op (Mode N) → ℝ)
    (R : UneqF → ℤ → ℝ → Prop) : Prop where
  corr : ∀ f ∈ [UneqF.nn, .zz, .xx], ∀ l < L, ∀ a b : Fin N, R f (a.val + N * b.val + N * N * l) (uvalue T l a b f)
  pair : ∀ f ∈ [UneqF.scSw, .scDw, .scSx, .b1g, .b2g], (f = .b1g → b1) →
    ∀ l o c c' : ℕ, l < L → o < Norb → c < Nx * Ny → c' < Nx * Ny →
    R f (c + (Nx * Ny : ℕ) * c' + (Nx * Ny : ℕ) * (Nx * Ny : ℕ) * (o + Norb * l)) (upairValue Nx Ny 0 T l o c c' f)
  tau0 : ∀ f ∈ [UneqF.gtau0U, .gtau0D], ∀ l < L, ∀ a b : Fin N, R f (a.val + N * (l + L * b.val)) (uvalue T l a b f)
  green : ∀ f ∈ [UneqF.g0tauU, .g0tauD, .geqltU, .geqltD], ∀ l < L, ∀ a b : Fin N,
    R f (a.val + N * (b.val + N * l)) (uvalue T l a b f)

/-! ## What the measurements add -/

section adds

variable [NeZero N] {sys : Sys σ N MeasData} {L len : ℕ} {Nx Ny Norb : ℕ} {junk : ℤ → ℤ}
  {alg : BlockCyclic.QRs N} {tau : BlockCyclic.Buf} {old : GreensUneq.Arrays}

theorem full_eq_adds (hx : 0 < Nx) (hy : 0 < Ny) (hN : N = Nx * Ny * Norb)
    (hm : sys.meas = Main.Full.realMeas Norb (Nx * Ny) L (Measurement.Full.maps Nx Ny junk) alg tau old) :
    Adds sys L len (fun m => m.eq.sign) (fun _ x => sgnOf sys L x * 1) (fun _ => 0) ∧
    ∀ (f : EqF) (z : ℤ) (V : Mat N → Mat N → ℝ),
      (∀ U D e, Measurement.Full.Estimates Nx Ny Norb U D e → e f z = V U D) →
      Adds sys L len (fun m => m.eq.arr f z) (fun l x => sgnOf sys L x *
        V (greenAt sys L (l + 1) sys.hs.expVu (Fock.extend x)) (greenAt sys L (l + 1) sys.hs.expVd (Fock.extend x)))
        (fun _ => 0) := by
  have hun : ∀ (sg : ℤ) (tu td : TSM N) (m m' : MeasData), sys.meas.uneq sg tu td m = some m' → m'.eq = m.eq := by
    intro sg tu td m m' e
    rw [hm] at e
    simp only [Main.Full.realMeas, Option.bind_eq_bind] at e
    obtain ⟨a, -, e⟩ := Option.bind_eq_some_iff.1 e
    obtain ⟨b, -, e⟩ := Option.bind_eq_some_iff.1 e
    obtain ⟨c, -, e⟩ := Option.bind_eq_some_iff.1 e
    obtain rfl := Option.some.inj e
    rfl
  have heq : ∀ (s : ℕ → Fin N → Fin 2) (l : ℕ) (Gu Gd : GreensFn N) (m m' : MeasData), l < L →
      Exact sys L (fun _ _ => 1) s (l + 1) Gu Gd → sys.meas.eq Gu Gd m = some m' →
      ∃ e, Measurement.Full.Estimates Nx Ny Norb (greenAt sys L (l + 1) sys.hs.expVu (Fock.extend (fieldOf L s)))
        (greenAt sys L (l + 1) sys.hs.expVd (Fock.extend (fieldOf L s))) e ∧
      m'.eq.sign = m.eq.sign + sgnOf sys L (fieldOf L s) ∧
      ∀ f z, m'.eq.arr f z = m.eq.arr f z + sgnOf sys L (fieldOf L s) * e f z := by
    intro s l Gu Gd m m' hl he e
    rw [hm] at e
    simp only [Main.Full.realMeas, Option.map_eq_some_iff] at e
    obtain ⟨d, e, rfl⟩ := e
    obtain ⟨est, h1, h2⟩ := Measurement.Full.accumulateEq_estimates hx hy hN junk Gu Gd he.up.sgn he.down.sgn
    rw [h2] at e
    obtain rfl := Option.some.inj e
    obtain ⟨e1, e2⟩ := exact_mats he
    rw [e1, e2] at h1
    rw [← exact_sign (by omega) he]
    exact ⟨est, h1, rfl, fun f z => rfl⟩
  refine ⟨⟨fun s l Gu Gd m m' hl he e => ?_, fun st m' hi e => ?_⟩, fun f z V hV =>
    ⟨fun s l Gu Gd m m' hl he e => ?_, fun st m' hi e => ?_⟩⟩
  · obtain ⟨est, -, h2, -⟩ := heq s l Gu Gd m m' hl he e
    rw [mul_one]
    exact h2
  · simp only [hun _ _ _ _ _ e, add_zero]
  · obtain ⟨est, h1, -, h3⟩ := heq s l Gu Gd m m' hl he e
    rw [h3, hV _ _ _ h1]
  · simp only [hun _ _ _ _ _ e, add_zero]

theorem full_uneq_adds (hx : 0 < Nx) (hy : 0 < Ny) (hN : N = Nx * Ny * Norb)
    (hm : sys.meas = Main.Full.realMeas Norb (Nx * Ny) L (Measurement.Full.maps Nx Ny junk) alg tau old) :
    Adds sys L len (fun m => m.uneq.sign) (fun _ _ => 0) (fun x => sgnOf sys L x * 1) ∧
    ∀ (f : UneqF) (z : ℤ) (V : TimeG N → TimeG N → ℝ),
      (∀ u d e, Measurement.Full.UneqEstimates Nx Ny Norb L (Nx = 1 ↔ Ny = 1) u d e → e f z = V u d) →
      Adds sys L len (fun m => m.uneq.arr f z) (fun _ _ => 0) (fun x => sgnOf sys L x *
        V (timeGreen sys L sys.hs.expVu (Fock.extend x)) (timeGreen sys L sys.hs.expVd (Fock.extend x))) := by
  have heq : ∀ Gu Gd (m m' : MeasData), sys.meas.eq Gu Gd m = some m' → m'.uneq = m.uneq := by
    intro Gu Gd m m' e
    rw [hm] at e
    simp only [Main.Full.realMeas, Option.map_eq_some_iff] at e
    obtain ⟨d, -, rfl⟩ := e
    rfl
  have hun : ∀ (st : State σ N MeasData) (m' : MeasData), Inv sys (fun _ _ => 1) L len 0 st →
      sys.meas.uneq (st.Gu.sgndet * st.Gd.sgndet) st.tsmU st.tsmD st.meas = some m' →
      ∃ e, Measurement.Full.UneqEstimates Nx Ny Norb L (Nx = 1 ↔ Ny = 1)
        (timeGreen sys L sys.hs.expVu (Fock.extend (fieldOf L st.s)))
        (timeGreen sys L sys.hs.expVd (Fock.extend (fieldOf L st.s))) e ∧
      m'.uneq.sign = st.meas.uneq.sign + sgnOf sys L (fieldOf L st.s) ∧
      ∀ f z, m'.uneq.arr f z = st.meas.uneq.arr f z + sgnOf sys L (fieldOf L st.s) * e f z := by
    intro st m' hi e
    rw [hm] at e
    simp only [Main.Full.realMeas, Option.bind_eq_bind] at e
    obtain ⟨a, ea, e⟩ := Option.bind_eq_some_iff.1 e
    obtain ⟨b, eb, e⟩ := Option.bind_eq_some_iff.1 e
    obtain ⟨c, ec, e⟩ := Option.bind_eq_some_iff.1 e
    obtain rfl := Option.some.inj e
    have hsg : (((st.Gu.sgndet * st.Gd.sgndet : ℤ) : ℝ)) = 1 ∨ (((st.Gu.sgndet * st.Gd.sgndet : ℤ) : ℝ)) = -1 := by
      rcases hi.up.good.sgn with h | h <;> rcases hi.down.good.sgn with h' | h' <;> simp [h, h']
    obtain ⟨est, h1, h2⟩ := Measurement.Full.accumulateUneq_estimates hx hy hN junk L
      (timeGreen sys L sys.hs.expVu (Fock.extend (fieldOf L st.s)))
      (timeGreen sys L sys.hs.expVd (Fock.extend (fieldOf L st.s))) (exactG_start _ _) (exactG_start _ _) _ hsg
    rw [compute_exact hi.up ea, compute_exact hi.down eb, h2] at ec
    obtain rfl := Option.some.inj ec
    have := exact_sign (Nat.zero_le L) ⟨hi.up.good, hi.down.good⟩
    rw [this]
    exact ⟨est, h1, rfl, fun f z => rfl⟩
  refine ⟨⟨fun s l Gu Gd m m' _ _ e => ?_, fun st m' hi e => ?_⟩, fun f z V hV =>
    ⟨fun s l Gu Gd m m' _ _ e => ?_, fun st m' hi e => ?_⟩⟩
  · simp only [heq _ _ _ _ e, add_zero]
  · obtain ⟨est, -, h2, -⟩ := hun st m' hi e
    rw [mul_one]
    exact h2
  · simp only [heq _ _ _ _ e, add_zero]
  · obtain ⟨est, h1, -, h3⟩ := hun st m' hi e
    rw [h3, hV _ _ _ h1]

end adds

section means

variable [NeZero N] {M : Type} {sys : Sys σ N M} {L : ℕ} {Nx Ny Norb : ℕ} {K : Mat N} {U : ℕ → ℝ} {dt : ℝ}

theorem siteEq_of_means (hK : K.IsSymm) (hD : Describes sys Norb K U dt)
    (hne : ∀ x : Field L N, signed sys L (Fock.extend x) (fun _ _ => 1) ≠ 0) {R : EqF → ℤ → ℝ → Prop}
    (h2 : ∀ (f : EqF) (z : ℤ) (V : Mat N → Mat N → ℝ) (T : ℝ),
      (∀ U D e, Measurement.Full.Estimates Nx Ny Norb U D e → e f z = V U D) →
      (∀ l < L, signedAverage sys L (fun _ _ => 1) (fun s => V (greenAt sys L (l + 1) sys.hs.expVu s)
        (greenAt sys L (l + 1) sys.hs.expVd s)) = T) → R f z T) :
    SiteEq Nx Ny Norb (thermalMean (stepOf sys K U dt) L) R := by
  constructor
  · intro f hf a
    exact h2 f _ (fun U D => densSpec (equalTime U D) a f) _ (fun U D e he => he.dens f hf a) fun l hl =>
      dens_mean hD (by omega) hne _ f hf
  · intro f hf a b
    exact h2 f _ (fun U D => corrSpec (equalTime U D) a b f) _
      (fun U D e he => he.corr f (by fin_cases hf <;> simp) a b) fun l hl => corr_mean hD (by omega) hne _ _ f hf
  · intro f hf o c c' ho hc hc'
    exact h2 f _ (fun U D => pairSpec (equalTime U D) Nx Ny 0 o c c' f) _
      (fun U D e he => he.pair f hf o c c' ho hc hc') fun l hl => pair_mean hD (by omega) hne _ _ _ _ _ _ f hf
  · intro a b
    exact h2 _ _ (fun U _ => U a b) _ (fun U D e he => he.grfunU a b) fun l hl =>
      green_mean (l := l + 1) hD hK (by omega) hne a b true
  · intro a b
    exact h2 _ _ (fun _ D => D a b) _ (fun U D e he => he.grfunD a b) fun l hl =>
      green_mean (l := l + 1) hD hK (by omega) hne a b false

/-- entries of the time dependent Green's functions -/
theorem UneqEstimates.green_entries {b1 : Prop} {u d : TimeG N} {e : UneqF → ℤ → ℝ}
    (he : Measurement.Full.UneqEstimates Nx Ny Norb L b1 u d e) {l : ℕ} (hl : l < L) (a b : Fin N) :
    (∀ f ∈ [UneqF.gtau0U, .gtau0D], e f (a.val + N * (l + L * b.val)) = ucorrSpec u d l a b f) ∧
    ∀ f ∈ [UneqF.g0tauU, .g0tauD, .geqltU, .geqltD], e f (a.val + N * (b.val + N * l)) = ucorrSpec u d l a b f := by
  have t := he.tau0 l hl a b
  have z := he.zerotau l hl a b
  have q := he.eqlt l hl a b
  constructor
  · intro f hf
    fin_cases hf
    · exact t.1
    · exact t.2
  · intro f hf
    fin_cases hf
    · exact z.1
    · exact z.2
    · exact q.1
    · exact q.2

theorem siteUneq_of_means (hK : K.IsSymm) (hD : Describes sys Norb K U dt)
    (hne : ∀ x : Field L N, signed sys L (Fock.extend x) (fun _ _ => 1) ≠ 0) {R : UneqF → ℤ → ℝ → Prop}
    (h2 : ∀ (f : UneqF) (z : ℤ) (V : TimeG N → TimeG N → ℝ) (T : ℝ),
      (∀ u d e, Measurement.Full.UneqEstimates Nx Ny Norb L (Nx = 1 ↔ Ny = 1) u d e → e f z = V u d) →
      signedAverage sys L (fun _ _ => 1) (fun s => V (timeGreen sys L sys.hs.expVu s)
        (timeGreen sys L sys.hs.expVd s)) = T → R f z T) :
    SiteUneq Nx Ny Norb L (Nx = 1 ↔ Ny = 1) (thermalPair (stepOf sys K U dt) L) R := by
  constructor
  · intro f hf l hl a b
    exact h2 f _ (fun u d => ucorrSpec u d l a b f) _ (fun u d e he => he.corr f hf l hl a b)
      (ucorr_mean hD hK hl.le hne _ _ f (by fin_cases hf <;> simp))
  · intro f hf hb l o c c' hl ho hc hc'
    exact h2 f _ (fun u d => upairSpec Nx Ny 0 (unequalTime u d l) o c c' f) _
      (fun u d e he => he.pair f hf hb l o c c' hl ho hc hc')
      (upair_mean hD hl.le hne _ _ _ _ _ _ f (by fin_cases hf <;> simp))
  · intro f hf l hl a b
    exact h2 f _ (fun u d => ucorrSpec u d l a b f) _ (fun u d e he => (UneqEstimates.green_entries he hl a b).1 f hf)
      (ucorr_mean hD hK hl.le hne _ _ f (by fin_cases hf <;> simp))
  · intro f hf l hl a b
    exact h2 f _ (fun u d => ucorrSpec u d l a b f) _ (fun u d e he => (UneqEstimates.green_entries he hl a b).2 f hf)
      (ucorr_mean hD hK hl.le hne _ _ f (by fin_cases hf <;> simp))

end means

/-! ## Long runs without phonons -/

section converge

variable [NeZero N] [MeasurableSpace σ] {P : Measure σ} {sys : Sys σ N MeasData} {ph : Phonon} {cfg : Cfg}
  {Nx Ny Norb : ℕ} {junk : ℤ → ℤ} {dt : ℝ}
  {alg : BlockCyclic.QRs N} {tau : BlockCyclic.Buf} {old : GreensUneq.Arrays} {K : Mat N} {U : ℕ → ℝ}

/-- C111, equal times: the quotients of the entries of the arrays and of the sum of the signs converge to the expectation
values at the sites they belong to -/
theorem full_equal_times_converge (hP : sys.rng.Ideal N P) (hok : sys.Ok cfg.prodBlen) (hL : 0 < cfg.L)
    (hd : cfg.prodBlen ∣ cfg.L) (hp : cfg.usePhonons = false) (hnq : 0 ≤ cfg.nequil) (hx : 0 < Nx) (hy : 0 < Ny)
    (hN : N = Nx * Ny * Norb)
    (hm : sys.meas = Main.Full.realMeas Norb (Nx * Ny) cfg.L (Measurement.Full.maps Nx Ny junk) alg tau old)
    (hK : K.IsSymm) (hD : Describes sys Norb K U dt)
    (hw : ∀ x : Field cfg.L N, sys.weight cfg.L (Fock.extend x) (fun _ _ => 1) ≠ 0) (hr : Responsive sys cfg.L)
    (h0 : 0 < cfg.neqlt) (h1 : cfg.neqlt ≤ cfg.L) (X expX : ℕ → Fin N → ℝ)
    (cnt : Counters) (meas : MeasData) (hmeas : meas.eq = EqData.allocate)
    (R : ℕ → Field cfg.L N → σ → LoopResult (State σ N MeasData))
    (hR : ∀ (n : ℕ) x r, simulate sys ph { cfg with nsampl := n } (fun _ => false) 0 r (Fock.extend x) X expX cnt meas
      = some (R n x r)) :
    SiteEq Nx Ny Norb (thermalMean (stepOf sys K U dt) cfg.L) fun f z v =>
      Converges P (fun n x r => (R n x r).state.meas.eq.arr f z / (R n x r).state.meas.eq.sign) v := by
  have hne : ∀ x : Field cfg.L N, signed sys cfg.L (Fock.extend x) (fun _ _ => 1) ≠ 0 := fun x h =>
    hw x (by rw [weight_eq, h, abs_zero])
  have hS := signedSum_pos (L := cfg.L) hD hK
  have hsg : wsum sys cfg.L (fun x => sgnOf sys cfg.L x * 1) = signedSum sys cfg.L := by
    rw [wsum_sgn]
    simp only [mul_one]
    rfl
  have hz : wsum sys cfg.L (fun _ => 0) = 0 := by unfold wsum; simp
  obtain ⟨a1, a2⟩ := full_eq_adds (len := cfg.prodBlen) hx hy hN hm
  refine siteEq_of_means hK hD hne fun f z V T hV hT => ?_
  refine ratio_converges (q' := fun _ x => sgnOf sys cfg.L x * 1) (qu' := fun _ => 0) hP hok hL hd hp hnq hw hr
    (a2 f z V hV) (fun l => eq_mem V (l + 1)) zero_mem_insensitive
    a1 (fun _ => sgn_mem) zero_mem_insensitive T (fun l hl => ?_) ?_ (fun l _ => ?_) ?_ ?_
    X expX cnt meas ?_ ?_ R hR
  · rw [wsum_average hne hS.ne' (fun s => V (greenAt sys cfg.L (l + 1) sys.hs.expVu s)
        (greenAt sys cfg.L (l + 1) sys.hs.expVd s)), hT l hl, hsg]
  · rw [hz, mul_zero]
  · rw [hsg]
    exact hS.le
  · rw [hz]
  · refine Or.inl ⟨cfg.neqlt.toNat - 1, by omega, h0, ?_, by rw [hsg]; exact hS⟩
    rw [show ((cfg.neqlt.toNat - 1 : ℕ) : ℤ) + 1 = cfg.neqlt by omega]
  · rw [hmeas]
    rfl
  · rw [hmeas]
    rfl

/-- C111, unequal times -/
theorem full_unequal_times_converge (hP : sys.rng.Ideal N P) (hok : sys.Ok cfg.prodBlen) (hL : 0 < cfg.L)
    (hd : cfg.prodBlen ∣ cfg.L) (hp : cfg.usePhonons = false) (hnq : 0 ≤ cfg.nequil) (hx : 0 < Nx) (hy : 0 < Ny)
    (hN : N = Nx * Ny * Norb)
    (hm : sys.meas = Main.Full.realMeas Norb (Nx * Ny) cfg.L (Measurement.Full.maps Nx Ny junk) alg tau old)
    (hK : K.IsSymm) (hD : Describes sys Norb K U dt)
    (hw : ∀ x : Field cfg.L N, sys.weight cfg.L (Fock.extend x) (fun _ _ => 1) ≠ 0) (hr : Responsive sys cfg.L)
    (h0 : 0 < cfg.nuneqlt) (X expX : ℕ → Fin N → ℝ)
    (cnt : Counters) (meas : MeasData) (hmeas : meas.uneq = UneqData.allocate)
    (R : ℕ → Field cfg.L N → σ → LoopResult (State σ N MeasData))
    (hR : ∀ (n : ℕ) x r, simulate sys ph { cfg with nsampl := n } (fun _ => false) 0 r (Fock.extend x) X expX cnt meas
      = some (R n x r)) :
    SiteUneq Nx Ny Norb cfg.L (Nx = 1 ↔ Ny = 1) (thermalPair (stepOf sys K U dt) cfg.L) fun f z v =>
      Converges P (fun n x r => (R n x r).state.meas.uneq.arr f z / (R n x r).state.meas.uneq.sign) v := by
  have hne : ∀ x : Field cfg.L N, signed sys cfg.L (Fock.extend x) (fun _ _ => 1) ≠ 0 := fun x h =>
    hw x (by rw [weight_eq, h, abs_zero])
  have hS := signedSum_pos (L := cfg.L) hD hK
  have hsg : wsum sys cfg.L (fun x => sgnOf sys cfg.L x * 1) = signedSum sys cfg.L := by
    rw [wsum_sgn]
    simp only [mul_one]
    rfl
  have hz : wsum sys cfg.L (fun _ => 0) = 0 := by unfold wsum; simp
  obtain ⟨a1, a2⟩ := full_uneq_adds (len := cfg.prodBlen) hx hy hN hm
  refine siteUneq_of_means hK hD hne fun f z V T hV hT => ?_
  refine ratio_converges (q' := fun _ _ => 0) (qu' := fun x => sgnOf sys cfg.L x * 1) hP hok hL hd hp hnq hw hr
    (a2 f z V hV) (fun l => zero_mem_insensitive) (uneq_mem V) a1 (fun _ => zero_mem_insensitive) sgn_mem T
    (fun l hl => ?_) ?_ (fun l _ => ?_) ?_ (Or.inr ⟨h0, ?_⟩) X expX cnt meas ?_ ?_ R hR
  · rw [hz, mul_zero]
  · rw [wsum_average hne hS.ne' (fun s => V (timeGreen sys cfg.L sys.hs.expVu s)
        (timeGreen sys cfg.L sys.hs.expVd s)), hT, hsg]
  · rw [hz]
  · rw [hsg]
    exact hS.le
  · rw [hsg]
    exact hS
  · rw [hmeas]
    rfl
  · rw [hmeas]
    rfl

end converge

/-! ## Long runs with phonons -/

section addsPh

variable [NeZero N] {sys : Sys σ N MeasData} {ph : Phonon} {L len : ℕ} {Nx Ny Norb : ℕ} {junk : ℤ → ℤ}
  {alg : BlockCyclic.QRs N} {tau : BlockCyclic.Buf} {old : GreensUneq.Arrays}

/-- what a measurement after slice `l` does -/
theorem full_measure_eq (hx : 0 < Nx) (hy : 0 < Ny) (hN : N = Nx * Ny * Norb)
    (hm : sys.meas = Main.Full.realMeas Norb (Nx * Ny) L (Measurement.Full.maps Nx Ny junk) alg tau old)
    {s : ℕ → Fin N → Fin 2} {X : ℕ → Fin N → ℝ} {l : ℕ} {Gu Gd : GreensFn N} {m m1 m2 : MeasData} (hl : l < L)
    (he : Exact sys L (sys.expOf ph X) s (l + 1) Gu Gd) (e1 : sys.meas.eq Gu Gd m = some m1)
    (e2 : sys.meas.phonon Gu Gd l X m1 = some m2) :
    let x : Conf L N := (fieldOf L s, pathsOf L X)
    m2.uneq = m.uneq ∧ m2.eq.sign = m.eq.sign + sgnPh sys ph L x ∧
    ∃ e, Measurement.Full.Estimates Nx Ny Norb (greenPh sys ph L (l + 1) sys.hs.expVu x)
      (greenPh sys ph L (l + 1) sys.hs.expVd x) e ∧
      ∀ f z, m2.eq.arr f z = m.eq.arr f z + sgnPh sys ph L x * e f z := by
  intro x
  have hsg := exact_sign_ph (by omega) he
  obtain ⟨hu, hd⟩ := exact_mats_ph he
  rw [hm] at e1 e2
  simp only [Main.Full.realMeas, Option.map_eq_some_iff] at e1 e2
  obtain ⟨a, e1, rfl⟩ := e1
  obtain ⟨b, e2, rfl⟩ := e2
  obtain ⟨est, h1, h2⟩ := Measurement.Full.accumulateEq_estimates hx hy hN junk Gu Gd he.up.sgn he.down.sgn
  rw [h2] at e1
  obtain rfl := Option.some.inj e1
  rw [hu, hd] at h1
  simp only [hsg]
  exact ⟨trivial, rfl, est, h1, fun f z => rfl⟩

/-- what an unequal time measurement does -/
theorem full_measure_uneq (hx : 0 < Nx) (hy : 0 < Ny) (hN : N = Nx * Ny * Norb)
    (hm : sys.meas = Main.Full.realMeas Norb (Nx * Ny) L (Measurement.Full.maps Nx Ny junk) alg tau old)
    {st : State σ N MeasData} {m' : MeasData} (hi : PhInv sys ph L len 0 st)
    (e : sys.meas.uneq (st.Gu.sgndet * st.Gd.sgndet) st.tsmU st.tsmD st.meas = some m') :
    let x : Conf L N := (fieldOf L st.s, pathsOf L st.X)
    m'.eq = st.meas.eq ∧ m'.uneq.sign = st.meas.uneq.sign + sgnPh sys ph L x ∧
    ∃ e, Measurement.Full.UneqEstimates Nx Ny Norb L (Nx = 1 ↔ Ny = 1) (timeGreenPh sys ph L sys.hs.expVu x)
      (timeGreenPh sys ph L sys.hs.expVd x) e ∧
      ∀ f z, m'.uneq.arr f z = st.meas.uneq.arr f z + sgnPh sys ph L x * e f z := by
  intro x
  have hi := hi.inv
  rw [hm] at e
  simp only [Main.Full.realMeas, Option.bind_eq_bind] at e
  obtain ⟨a, ea, e⟩ := Option.bind_eq_some_iff.1 e
  obtain ⟨b, eb, e⟩ := Option.bind_eq_some_iff.1 e
  obtain ⟨c, ec, e⟩ := Option.bind_eq_some_iff.1 e
  obtain rfl := Option.some.inj e
  have hsg : (((st.Gu.sgndet * st.Gd.sgndet : ℤ) : ℝ)) = 1 ∨ (((st.Gu.sgndet * st.Gd.sgndet : ℤ) : ℝ)) = -1 := by
    rcases hi.up.good.sgn with h | h <;> rcases hi.down.good.sgn with h' | h' <;> simp [h, h']
  obtain ⟨est, h1, h2⟩ := Measurement.Full.accumulateUneq_estimates hx hy hN junk L (timeGreenPh sys ph L sys.hs.expVu x)
    (timeGreenPh sys ph L sys.hs.expVd x) (exactG_start _ _) (exactG_start _ _) _ hsg
  rw [compute_exact_ph hi.up ea, compute_exact_ph hi.down eb, h2] at ec
  obtain rfl := Option.some.inj ec
  have := exact_sign_ph (Nat.zero_le L) ⟨hi.up.good, hi.down.good⟩
  rw [this]
  exact ⟨rfl, rfl, est, h1, fun f z => rfl⟩

end addsPh

section convergePh

variable [MeasurableSpace σ] {P : Measure σ} [NeZero N] {sys : Sys σ N MeasData} {ph : Phonon} {rest : Measure ℝ}
  [SigmaFinite rest] {cfg : Cfg} {Nx Ny Norb : ℕ} {junk : ℤ → ℤ}
  {alg : BlockCyclic.QRs N} {tau : BlockCyclic.Buf} {old : GreensUneq.Arrays} {K : Mat N} {U : ℕ → ℝ}
  {Ω : Type} [MeasurableSpace Ω] {ν : Measure Ω} [IsFiniteMeasure ν]

set_option maxHeartbeats 400000 in
/-- C111, equal times, with phonons -/
theorem full_equal_times_converge_ph (hP : sys.rng.Ideal N P) (hok : sys.Ok cfg.prodBlen) (hL : 2 ≤ cfg.L)
    (hd : cfg.prodBlen ∣ cfg.L) (hp : cfg.usePhonons = true) (hnq : 0 ≤ cfg.nequil) (hmob : Mobile sys ph rest cfg.L cfg.noHS)
    (hx : 0 < Nx) (hy : 0 < Ny) (hN : N = Nx * Ny * Norb)
    (hm : sys.meas = Main.Full.realMeas Norb (Nx * Ny) cfg.L (Measurement.Full.maps Nx Ny junk) alg tau old)
    (hD : Describes sys Norb K U ph.dt) (hS : Sound sys ph rest cfg.L) (hZ : holsteinZ sys ph rest K U cfg.L ≠ 0)
    (h0 : 0 < cfg.neqlt) (h1 : cfg.neqlt ≤ cfg.L) (cnt : Counters) (meas : ℕ → MeasData)
    (hm0 : ∀ n, (meas n).eq = EqData.allocate)
    {ρ : Ω → Conf cfg.L N × σ} {s : Ω → ℕ → Fin N → Fin 2} {X expX : Ω → ℕ → Fin N → ℝ}
    (hst : Start sys ph rest cfg.L P ν ρ s X expX) (R : ℕ → Ω → LoopResult (State σ N MeasData))
    (hR : ∀ n : ℕ, ∀ᵐ ω ∂ν, simulate sys ph { cfg with nsampl := n } (fun _ => false) 0 (ρ ω).2 (s ω) (X ω) (expX ω) cnt
      (meas n) = some (R n ω)) :
    SiteEq Nx Ny Norb (fun X => holsteinPair sys ph rest K U cfg.L 0 (fun _ => 1) X 1) fun f z v =>
      TendstoInMeasure ν (fun n ω => (R n ω).state.meas.eq.arr f z / (R n ω).state.meas.eq.sign) atTop fun _ => v := by
  have : NeZero cfg.L := ⟨by omega⟩
  have key : ∀ (f : EqF) (z : ℤ) (V : Mat N → Mat N → ℝ) (v : ℝ),
      (∀ U D e, Measurement.Full.Estimates Nx Ny Norb U D e → e f z = V U D) →
      (∀ l < cfg.L, HasVal sys ph rest U cfg.L (fun x => V (greenPh sys ph cfg.L (l + 1) sys.hs.expVu x)
        (greenPh sys ph cfg.L (l + 1) sys.hs.expVd x)) v) →
      TendstoInMeasure ν (fun n ω => (R n ω).state.meas.eq.arr f z / (R n ω).state.meas.eq.sign) atTop
        fun _ => v / holsteinZ sys ph rest K U cfg.L := by
    intro f z V v hV hv
    refine ratio_eq_ph (φ := fun m => m.eq.arr f z) (ψ := fun m => m.eq.sign) hP hok hL hd hp hnq hmob hD hS hZ h0 h1 cnt meas
      hst R hR (fun n => by rw [hm0]; rfl) (fun n => by rw [hm0]; rfl) hv (fun l _ a x => ?_)
      (fun s X l Gu Gd m m1 m2 hl he e1 e2 => ?_) fun st m' hi e => ?_
    · rw [(greenPh_vary _ a x).1, (greenPh_vary _ a x).2]
    · have hh := full_measure_eq hx hy hN hm hl he e1 e2
      obtain ⟨est, h2, h3⟩ := hh.2.2
      refine ⟨?_, hh.2.1⟩
      rw [h3, hV _ _ _ h2]
    · rw [(full_measure_uneq hx hy hN hm hi e).1]
      exact ⟨rfl, rfl⟩
  refine ⟨fun f hf a => ?_, fun f hf a b => ?_, fun f hf o c c' ho hc hc' => ?_, fun a b => ?_, fun a b => ?_⟩
  · exact key f _ (fun U D => densSpec (equalTime U D) a f) _ (fun U D e he => he.dens f hf a)
      fun l hl => dens_val hS hD hl _ f hf
  · exact key f _ (fun U D => corrSpec (equalTime U D) a b f) _
      (fun U D e he => he.corr f (by fin_cases hf <;> simp) a b) fun l hl => corr_val hS hD hl _ _ f hf
  · exact key f _ (fun U D => pairSpec (equalTime U D) Nx Ny 0 o c c' f) _
      (fun U D e he => he.pair f hf o c c' ho hc hc') fun l hl => pair_val hS hD hl _ _ _ _ _ _ f hf
  · exact key _ _ (fun U _ => U a b) _ (fun U D e he => he.grfunU a b) fun l hl => green_val hS hD hl a b true
  · exact key _ _ (fun _ D => D a b) _ (fun U D e he => he.grfunD a b) fun l hl => green_val hS hD hl a b false

/-- C111, unequal times, with phonons -/
theorem full_unequal_times_converge_ph (hP : sys.rng.Ideal N P) (hok : sys.Ok cfg.prodBlen) (hL : 2 ≤ cfg.L)
    (hd : cfg.prodBlen ∣ cfg.L) (hp : cfg.usePhonons = true) (hnq : 0 ≤ cfg.nequil) (hmob : Mobile sys ph rest cfg.L cfg.noHS)
    (hx : 0 < Nx) (hy : 0 < Ny) (hN : N = Nx * Ny * Norb)
    (hm : sys.meas = Main.Full.realMeas Norb (Nx * Ny) cfg.L (Measurement.Full.maps Nx Ny junk) alg tau old)
    (hD : Describes sys Norb K U ph.dt) (hS : Sound sys ph rest cfg.L) (hZ : holsteinZ sys ph rest K U cfg.L ≠ 0)
    (h0 : 0 < cfg.nuneqlt) (cnt : Counters) (meas : ℕ → MeasData) (hm0 : ∀ n, (meas n).uneq = UneqData.allocate)
    {ρ : Ω → Conf cfg.L N × σ} {s : Ω → ℕ → Fin N → Fin 2} {X expX : Ω → ℕ → Fin N → ℝ}
    (hst : Start sys ph rest cfg.L P ν ρ s X expX) (R : ℕ → Ω → LoopResult (State σ N MeasData))
    (hR : ∀ n : ℕ, ∀ᵐ ω ∂ν, simulate sys ph { cfg with nsampl := n } (fun _ => false) 0 (ρ ω).2 (s ω) (X ω) (expX ω) cnt
      (meas n) = some (R n ω)) :
    SiteUneq Nx Ny Norb cfg.L (Nx = 1 ↔ Ny = 1)
      (fun l X Y => holsteinPair sys ph rest K U cfg.L l (fun _ => 1) X Y) fun f z v =>
      TendstoInMeasure ν (fun n ω => (R n ω).state.meas.uneq.arr f z / (R n ω).state.meas.uneq.sign) atTop fun _ => v := by
  have key : ∀ (f : UneqF) (z : ℤ) (V : TimeG N → TimeG N → ℝ) (v : ℝ),
      (∀ u d e, Measurement.Full.UneqEstimates Nx Ny Norb cfg.L (Nx = 1 ↔ Ny = 1) u d e → e f z = V u d) →
      HasVal sys ph rest U cfg.L (fun x => V (timeGreenPh sys ph cfg.L sys.hs.expVu x)
        (timeGreenPh sys ph cfg.L sys.hs.expVd x)) v →
      TendstoInMeasure ν (fun n ω => (R n ω).state.meas.uneq.arr f z / (R n ω).state.meas.uneq.sign) atTop
        fun _ => v / holsteinZ sys ph rest K U cfg.L := by
    intro f z V v hV hv
    refine ratio_uneq_ph (φ := fun m => m.uneq.arr f z) (ψ := fun m => m.uneq.sign) hP hok hL hd hp hnq hmob hD hS hZ h0 cnt
      meas hst R hR (fun n => by rw [hm0]; rfl) (fun n => by rw [hm0]; rfl) hv (fun a x => ?_)
      (fun s X l Gu Gd m m1 m2 hl he e1 e2 => ?_) fun st m' hi e => ?_
    · rw [(timeGreenPh_vary a x).1, (timeGreenPh_vary a x).2]
    · rw [(full_measure_eq hx hy hN hm hl he e1 e2).1]
      exact ⟨rfl, rfl⟩
    · have hh := full_measure_uneq hx hy hN hm hi e
      obtain ⟨est, h2, h3⟩ := hh.2.2
      refine ⟨?_, hh.2.1⟩
      rw [h3, hV _ _ _ h2]
  have ev : ∀ (l : ℕ) (a b : Fin N) (f : UneqF), uvalue (fun l => holstein sys ph rest K U cfg.L l fun _ => 1) l a b f /
      holsteinZ sys ph rest K U cfg.L
      = uvalue (fun l X Y => holsteinPair sys ph rest K U cfg.L l (fun _ => 1) X Y) l a b f := by
    intro l a b f
    cases f <;> simp only [uvalue, holsteinPair, zero_div]
    all_goals
      split
      · rfl
      · rw [neg_div]
  have ep : ∀ (l o c c' : ℕ) (f : UneqF), upairValue (N := N) Nx Ny 0 (fun l => holstein sys ph rest K U cfg.L l fun _ => 1)
      l o c c' f / holsteinZ sys ph rest K U cfg.L
      = upairValue Nx Ny 0 (fun l X Y => holsteinPair sys ph rest K U cfg.L l (fun _ => 1) X Y) l o c c' f := by
    intro l o c c' f
    cases f <;> simp only [upairValue, holsteinPair, zero_div, neg_div]
  constructor
  · intro f hf l hl a b
    have h := key f _ (fun u d => ucorrSpec u d l a b f) _ (fun u d e he => he.corr f hf l hl a b)
      (ucorr_val hS hD hl.le a b f (by fin_cases hf <;> simp))
    rw [ev] at h
    exact h
  · intro f hf hb l o c c' hl ho hc hc'
    have h := key f _ (fun u d => upairSpec Nx Ny 0 (unequalTime u d l) o c c' f) _
      (fun u d e he => he.pair f hf hb l o c c' hl ho hc hc')
      (upair_val hS hD hl.le _ _ _ _ _ _ f (by fin_cases hf <;> simp))
    rw [ep] at h
    exact h
  · intro f hf l hl a b
    have h := key f _ (fun u d => ucorrSpec u d l a b f) _
      (fun u d e he => (UneqEstimates.green_entries he hl a b).1 f hf)
      (ucorr_val hS hD hl.le a b f (by fin_cases hf <;> simp))
    rw [ev] at h
    exact h
  · intro f hf l hl a b
    have h := key f _ (fun u d => ucorrSpec u d l a b f) _
      (fun u d e he => (UneqEstimates.green_entries he hl a b).2 f hf)
      (ucorr_val hS hD hl.le a b f (by fin_cases hf <;> simp))
    rw [ev] at h
    exact h

end convergePh

/-! ## The program -/

section program

variable [MeasurableSpace σ] {P : Measure σ} {mc : Machine} {p : SimParams ℝ}

/-- the measurements of the other build follow those of the first -/
theorem full_follows [NeZero (sites p)] (hmc : mc.Rounds) (hv : Admissible p) (hg : Guards p) (hN : sites p < 2 ^ 31)
    {sys : Sys Seed (sites p) MeasData} (hsys : sysOf mc p = some sys) :
    ∃ sysF, Main.Full.sysOf mc p = some sysF ∧ sysF = sys.withMeas sysF.meas ∧
      sysF.meas = Main.Full.realMeas p.Norb.toNat (p.Nx.toNat * p.Ny.toNat) p.L.toNat
        (Measurement.Full.maps p.Nx.toNat p.Ny.toNat mc.maps) (mc.qrs _) mc.tau mc.green ∧
      sys.meas.Follows sysF.meas (Main.Full.Agree p.Nx.toNat p.Ny.toNat p.Norb.toNat p.L.toNat p.pbcShift) := by
  have h2 := hv.nx
  have h3 := hv.ny
  have hNN : sites p = p.Nx.toNat * p.Ny.toNat * p.Norb.toNat := by unfold sites; ring
  obtain ⟨sys0, e0, -, -, hm⟩ := sys_defined hmc hv hg.U hg.shift hN ""
  obtain rfl : sys0 = sys := Option.some.inj (e0.symm.trans hsys)
  refine ⟨_, by unfold Main.Full.sysOf; rw [hsys]; rfl, rfl, rfl, ?_⟩
  rw [hm]
  exact Main.Full.realMeas_follows (by omega) (by omega) hNN hg.shift _ _ _ _ _ _ _

/-- the system of the other build comes from that of the first -/
theorem full_sys [NeZero (sites p)] (hmc : mc.Rounds) (hv : Admissible p) (hg : Guards p) (hN : sites p < 2 ^ 31)
    {sysF : Sys Seed (sites p) MeasData} (hsys : Main.Full.sysOf mc p = some sysF) :
    ∃ sys, sysOf mc p = some sys ∧ sysF = sys.withMeas sysF.meas ∧
      sysF.meas = Main.Full.realMeas p.Norb.toNat (p.Nx.toNat * p.Ny.toNat) p.L.toNat
        (Measurement.Full.maps p.Nx.toNat p.Ny.toNat mc.maps) (mc.qrs _) mc.tau mc.green ∧
      sys.meas.Follows sysF.meas (Main.Full.Agree p.Nx.toNat p.Ny.toNat p.Norb.toNat p.L.toNat p.pbcShift) := by
  obtain ⟨sys, e, -⟩ := Option.map_eq_some_iff.1 hsys
  obtain ⟨sysF', e1, e2, e3, e4⟩ := full_follows hmc hv hg hN e
  obtain rfl := Option.some.inj (e1.symm.trans hsys)
  exact ⟨sys, e, e2, e3, e4⟩

theorem SiteEq.mono {Nx Ny Norb : ℕ} [NeZero N] {T : Op (Mode N) → ℝ} {R R' : EqF → ℤ → ℝ → Prop}
    (h : SiteEq Nx Ny Norb T R) (hi : ∀ f z v, R f z v → R' f z v) : SiteEq Nx Ny Norb T R' :=
  ⟨fun f hf a => hi _ _ _ (h.dens f hf a), fun f hf a b => hi _ _ _ (h.corr f hf a b),
    fun f hf o c c' ho hc hc' => hi _ _ _ (h.pair f hf o c c' ho hc hc'), fun a b => hi _ _ _ (h.grfunU a b),
    fun a b => hi _ _ _ (h.grfunD a b)⟩

theorem SiteUneq.mono {Nx Ny Norb L : ℕ} [NeZero N] {b1 : Prop} {T : ℕ → Op (Mode N) → Op (Mode N) → ℝ}
    {R R' : UneqF → ℤ → ℝ → Prop} (h : SiteUneq Nx Ny Norb L b1 T R) (hi : ∀ f z v, R f z v → R' f z v) :
    SiteUneq Nx Ny Norb L b1 T R' :=
  ⟨fun f hf l hl a b => hi _ _ _ (h.corr f hf l hl a b),
    fun f hf hb l o c c' hl ho hc hc' => hi _ _ _ (h.pair f hf hb l o c c' hl ho hc hc'),
    fun f hf l hl a b => hi _ _ _ (h.tau0 f hf l hl a b), fun f hf l hl a b => hi _ _ _ (h.green f hf l hl a b)⟩

/-- C111 for accepted parameters within the guards: the assumptions are those of C90 -/
theorem full_program_converges [NeZero (sites p)] (hmc : mc.Rounds) (hv : Admissible p) (hg : Guards p)
    (hN : sites p < 2 ^ 31) (hp : p.usePhonons = false) (fnbase : String) (rng : Rng σ) (hlaw : rng.Lawful (sites p))
    (hP : rng.Ideal (sites p) P) (sysF : Sys Seed (sites p) MeasData) (hsys : Main.Full.sysOf mc p = some sysF)
    (hw : ∀ s, sysF.weight p.L.toNat s (fun _ _ => 1) ≠ 0)
    (hr : ∀ i : Fin (sites p), p.U ((i.val / (p.Nx.toNat * p.Ny.toNat) : ℕ) : ℤ) = 0 ∨
      ∀ l < p.L.toNat, ∀ x : Field p.L.toNat (sites p),
        sysF.weight p.L.toNat (Fock.extend (flipAt l i x)) (fun _ _ => 1)
          ≠ sysF.weight p.L.toNat (Fock.extend x) (fun _ _ => 1))
    (hnq : 0 ≤ p.nequil) (X expX : ℕ → Fin (sites p) → ℝ) (cnt : Counters) (maxNsampl : ℕ) :
    let L := p.L.toNat
    let su := Main.Full.mkSetup mc p fnbase
    ∃ R : ℕ → Field L (sites p) → σ → LoopResult (State σ (sites p) MeasData),
      (∀ (n : ℕ) x r, simulate (sysF.withRng rng) su.ph { su.cfg with nsampl := n } (fun _ => false) 0 r
        (Fock.extend x) X expX cnt (MeasData.allocate maxNsampl) = some (R n x r)) ∧
      (0 < p.neqlt → p.neqlt ≤ p.L →
        SiteEq p.Nx.toNat p.Ny.toNat p.Norb.toNat (thermalMean (hubbardStep p) L) fun f z v =>
          Converges P (fun n x r => (R n x r).state.meas.eq.arr f z / (R n x r).state.meas.eq.sign) v) ∧
      (0 < p.nuneqlt →
        SiteUneq p.Nx.toNat p.Ny.toNat p.Norb.toNat L (p.Nx.toNat = 1 ↔ p.Ny.toNat = 1)
          (thermalPair (hubbardStep p) L) fun f z v =>
          Converges P (fun n x r => (R n x r).state.meas.uneq.arr f z / (R n x r).state.meas.uneq.sign) v) := by
  intro L su
  obtain ⟨sys, hs, hw', hmF, hfol⟩ := full_sys hmc hv hg hN hsys
  have hwt : ∀ s E, sysF.weight p.L.toNat s E = sys.weight p.L.toNat s E := fun s E => by rw [hw']; rfl
  obtain ⟨R0, hR0, -⟩ := program_converges hmc hv hg hN hp fnbase rng hlaw hP sys hs (fun s => by rw [← hwt]; exact hw s)
    (fun i => (hr i).imp id fun h l hl x => by rw [← hwt, ← hwt]; exact h l hl x) hnq X expX cnt maxNsampl
  have hrun : ∀ (n : ℕ) (x : Field L (sites p)) (r : σ), ∃ R, simulate (sysF.withRng rng) su.ph { su.cfg with nsampl := n }
      (fun _ => false) 0 r (Fock.extend x) X expX cnt (MeasData.allocate maxNsampl) = some R := by
    intro n x r
    obtain ⟨m', -, h⟩ := simulate_follows (sys := sys.withRng rng) (R' := sysF.meas) hfol _ _ _ _ _ _ _ _ _ _ _
      (Main.Full.Agree.allocate _ _ _ _ _ maxNsampl) (hR0 n x r)
    refine ⟨_, Eq.trans ?_ h⟩
    rw [hw']
    rfl
  choose R hR using hrun
  have h1 := hv.norb
  have h2 := hv.nx
  have h3 := hv.ny
  have h4 := hv.l
  obtain ⟨sys0, e0, hok0, -, -⟩ := sys_defined hmc hv hg.U hg.shift hN fnbase
  obtain rfl : sys0 = sys := Option.some.inj (e0.symm.trans hs)
  obtain ⟨ho, hdes⟩ := program_describes hv hg sys0 hs
  set sys' := sysF.withRng rng with hsys'
  have hok : sys'.Ok su.cfg.prodBlen := by
    rw [hsys', hw']
    exact ⟨hok0.expK, hok0.hs, hlaw, hok0.dvd⟩
  have hD : Describes sys' p.Norb.toNat (bondMatrix p) (fun o => p.U o) p.dt := by
    rw [hsys', hw']
    exact ⟨hdes.nonneg, hdes.orb, hdes.hs, hdes.expK⟩
  have ho' : ∀ i, sys'.orb i = i.val / (p.Nx.toNat * p.Ny.toNat) := by
    rw [hsys', hw']
    exact ho
  have hstep : stepOf sys' (bondMatrix p) (fun o => p.U o) p.dt = hubbardStep p := by
    unfold stepOf hubbardStep
    simp only [ho']
  have hL : 0 < su.cfg.L := by show 0 < p.L.toNat; omega
  have hd : su.cfg.prodBlen ∣ su.cfg.L := toNat_dvd hv.prodBlen hv.l hv.dvdL
  have hwx : ∀ x : Field su.cfg.L (sites p), sys'.weight su.cfg.L (Fock.extend x) (fun _ _ => 1) ≠ 0 := fun x => hw _
  have hNN : sites p = p.Nx.toNat * p.Ny.toNat * p.Norb.toNat := by unfold sites; ring
  have hr' : Responsive sys' su.cfg.L := by
    intro i
    rcases hr i with h | h
    · exact Or.inl (decoupled_of_zero hD (by rw [ho' i]; exact h))
    · exact Or.inr h
  refine ⟨R, hR, fun hc hcL => ?_, fun hc => ?_⟩
  · have h := full_equal_times_converge (sys := sys') (cfg := su.cfg) hP hok hL hd hp hnq (by omega) (by omega) hNN hmF
      (bondMatrix_symm p) hD hwx hr' hc (by show p.neqlt ≤ (p.L.toNat : ℤ); omega) X expX cnt _ rfl R hR
    rw [hstep] at h
    exact h
  · have h := full_unequal_times_converge (sys := sys') (cfg := su.cfg) hP hok hL hd hp hnq (by omega) (by omega) hNN hmF
      (bondMatrix_symm p) hD hwx hr' hc X expX cnt _ rfl R hR
    rw [hstep] at h
    exact h

/-- C111 for runs from scratch -/
theorem full_program_fresh_converges [NeZero (sites p)] (hmc : mc.Rounds) (hv : Admissible p) (hg : Guards p)
    (hN : sites p < 2 ^ 31) (hp : p.usePhonons = false) (fnbase : String) (rng : Rng σ) (hlaw : rng.Lawful (sites p))
    (hP : rng.Ideal (sites p) P) (sysF : Sys Seed (sites p) MeasData) (hsys : Main.Full.sysOf mc p = some sysF)
    (hw : ∀ s, sysF.weight p.L.toNat s (fun _ _ => 1) ≠ 0)
    (hr : ∀ i : Fin (sites p), p.U ((i.val / (p.Nx.toNat * p.Ny.toNat) : ℕ) : ℤ) = 0 ∨
      ∀ l < p.L.toNat, ∀ x : Field p.L.toNat (sites p),
        sysF.weight p.L.toNat (Fock.extend (flipAt l i x)) (fun _ _ => 1)
          ≠ sysF.weight p.L.toNat (Fock.extend x) (fun _ _ => 1))
    (hnq : 0 ≤ p.nequil) (X expX : ℕ → Fin (sites p) → ℝ) (cnt : Counters) (maxNsampl : ℕ) :
    let L := p.L.toNat
    let su := Main.Full.mkSetup mc p fnbase
    ∃ R : ℕ → σ → LoopResult (State σ (sites p) MeasData),
      (∀ (n : ℕ) r, simulate (sysF.withRng rng) su.ph { su.cfg with nsampl := n } (fun _ => false) 0
        (freshField rng L (sites p) r).2 (Fock.extend (freshField rng L (sites p) r).1) X expX cnt
        (MeasData.allocate maxNsampl) = some (R n r)) ∧
      (0 < p.neqlt → p.neqlt ≤ p.L →
        SiteEq p.Nx.toNat p.Ny.toNat p.Norb.toNat (thermalMean (hubbardStep p) L) fun f z v =>
          Converges P (fun n (_ : Unit) r => (R n r).state.meas.eq.arr f z / (R n r).state.meas.eq.sign) v) ∧
      (0 < p.nuneqlt →
        SiteUneq p.Nx.toNat p.Ny.toNat p.Norb.toNat L (p.Nx.toNat = 1 ↔ p.Ny.toNat = 1)
          (thermalPair (hubbardStep p) L) fun f z v =>
          Converges P (fun n (_ : Unit) r => (R n r).state.meas.uneq.arr f z / (R n r).state.meas.uneq.sign) v) := by
  intro L su
  obtain ⟨R, h1, h2, h3⟩ := full_program_converges hmc hv hg hN hp fnbase rng hlaw hP sysF hsys hw hr hnq X expX cnt
    maxNsampl
  exact ⟨fun n r => R n (freshField rng L (sites p) r).1 (freshField rng L (sites p) r).2, fun n r => h1 n _ _,
    fun hc hcL => (h2 hc hcL).mono fun f z v h => h.fresh hP, fun hc => (h3 hc).mono fun f z v h => h.fresh hP⟩

set_option maxHeartbeats 800000 in
/-- C111 with phonons: the assumptions are those of C105 -/
theorem full_program_converges_ph [NeZero (sites p)] (hmc : mc.Rounds) (hv : Admissible p) (hg : Guards p)
    (hN : sites p < 2 ^ 31) (hmv : Movable p) (fnbase : String) (rng : Rng σ) (hlaw : rng.Lawful (sites p))
    (hP : rng.Ideal (sites p) P) (sysF : Sys Seed (sites p) MeasData) (hsys : Main.Full.sysOf mc p = some sysF)
    (cnt : Counters) {Ω : Type} [MeasurableSpace Ω] {ν : Measure Ω} [IsFiniteMeasure ν]
    {ρ : Ω → Conf p.L.toNat (sites p) × σ}
    {s : Ω → ℕ → Fin (sites p) → Fin 2} {X expX : Ω → ℕ → Fin (sites p) → ℝ}
    (hst : Start (sysF.withRng rng) (phOf p) (Measure.dirac 0) p.L.toNat P ν ρ s X expX) :
    let L := p.L.toNat
    let su := fun n : ℕ => Main.Full.mkSetup mc { p with nsampl := n } fnbase
    ∃ R : ℕ → Ω → LoopResult (State σ (sites p) MeasData),
      (∀ n : ℕ, ∀ᵐ ω ∂ν, simulate (sysF.withRng rng) (su n).ph (su n).cfg (fun _ => false) 0 (ρ ω).2 (s ω) (X ω) (expX ω)
        cnt (MeasData.allocate (su n).maxNsampl) = some (R n ω)) ∧
      (0 < p.neqlt → p.neqlt ≤ p.L →
        (SiteEq p.Nx.toNat p.Ny.toNat p.Norb.toNat
          (fun X => holsteinMean p (Measure.dirac 0) L 0 (fun _ => 1) X 1) fun f z v =>
          TendstoInMeasure ν (fun n ω => (R n ω).state.meas.eq.arr f z / (R n ω).state.meas.eq.sign) atTop fun _ => v) ∧
        ∀ f ∈ [PhF.xAvg, .xSqAvg], ∀ o < p.Norb.toNat,
          TendstoInMeasure ν (fun n ω => (R n ω).state.meas.ph.arr f o / (R n ω).state.meas.ph.sign) atTop fun _ =>
            phValue p.Norb.toNat (p.Nx.toNat * p.Ny.toNat) L p.dt (fun o => p.phonon.omega o)
              (fun F X => holsteinMean p (Measure.dirac 0) L 0 F X 1) o f) ∧
      (0 < p.nuneqlt →
        SiteUneq p.Nx.toNat p.Ny.toNat p.Norb.toNat L (p.Nx.toNat = 1 ↔ p.Ny.toNat = 1)
          (fun l X Y => holsteinMean p (Measure.dirac 0) L l (fun _ => 1) X Y) fun f z v =>
          TendstoInMeasure ν (fun n ω => (R n ω).state.meas.uneq.arr f z / (R n ω).state.meas.uneq.sign) atTop fun _ => v) := by
  intro L su
  obtain ⟨sys, hs, hw', hmF, hfol⟩ := full_sys hmc hv hg hN hsys
  have hst0 : Start (sys.withRng rng) (phOf p) (Measure.dirac 0) p.L.toNat P ν ρ s X expX := by
    rw [hw'] at hst
    exact ⟨hst.quasi, hst.field, hst.paths, hst.exps⟩
  obtain ⟨R0, hR0, hE0, -⟩ := program_converges_ph hmc hv hg hN hmv fnbase rng hlaw hP sys hs cnt hst0
  have hrun : ∀ (n : ℕ) (ω : Ω), ∃ m', simulate (sys.withRng rng) (su n).ph (su n).cfg (fun _ => false) 0 (ρ ω).2 (s ω) (X ω)
        (expX ω) cnt (MeasData.allocate (su n).maxNsampl) = some (R0 n ω) →
      Main.Full.Agree p.Nx.toNat p.Ny.toNat p.Norb.toNat p.L.toNat p.pbcShift (R0 n ω).state.meas m' ∧
      simulate (sysF.withRng rng) (su n).ph (su n).cfg (fun _ => false) 0 (ρ ω).2 (s ω) (X ω) (expX ω)
        cnt (MeasData.allocate (su n).maxNsampl)
        = some ⟨(R0 n ω).iteration, (R0 n ω).state.mapMeas fun _ => m', (R0 n ω).prog, (R0 n ω).broke⟩ := by
    intro n ω
    by_cases h : simulate (sys.withRng rng) (su n).ph (su n).cfg (fun _ => false) 0 (ρ ω).2 (s ω) (X ω)
        (expX ω) cnt (MeasData.allocate (su n).maxNsampl) = some (R0 n ω)
    · obtain ⟨m', h1, h2⟩ := simulate_follows (sys := sys.withRng rng) (R' := sysF.meas) hfol _ _ _ _ _ _ _ _ _ _ _
        (Main.Full.Agree.allocate _ _ _ _ _ (su n).maxNsampl) h
      refine ⟨m', fun _ => ⟨h1, Eq.trans ?_ h2⟩⟩
      rw [hw']
      rfl
    · exact ⟨MeasData.allocate 0, fun h' => absurd h' h⟩
  choose mF hmF' using hrun
  set R : ℕ → Ω → LoopResult (State σ (sites p) MeasData) := fun n ω =>
    ⟨(R0 n ω).iteration, (R0 n ω).state.mapMeas fun _ => mF n ω, (R0 n ω).prog, (R0 n ω).broke⟩ with hRdef
  have hR : ∀ n : ℕ, ∀ᵐ ω ∂ν, simulate (sysF.withRng rng) (su n).ph (su n).cfg (fun _ => false) 0 (ρ ω).2 (s ω) (X ω)
      (expX ω) cnt (MeasData.allocate (su n).maxNsampl) = some (R n ω) := by
    intro n
    filter_upwards [hR0 n] with ω h
    exact (hmF' n ω h).2
  have h1 := hv.norb
  have h2 := hv.nx
  have h3 := hv.ny
  have h4 := hv.l
  have hm2 := hmv.slices
  obtain ⟨sys0, e0, hok0, -, -⟩ := sys_defined hmc hv hg.U hg.shift hN fnbase
  obtain rfl : sys0 = sys := Option.some.inj (e0.symm.trans hs)
  obtain ⟨ho, hdes⟩ := program_describes hv hg sys0 hs
  set sys' := sysF.withRng rng with hsys'
  set cfg := (mkSetup mc p fnbase).cfg with hcfg
  have hok : sys'.Ok cfg.prodBlen := by
    rw [hsys', hw']
    exact ⟨hok0.expK, hok0.hs, hlaw, hok0.dvd⟩
  have hD : Describes sys' p.Norb.toNat (bondMatrix p) (fun o => p.U o) (phOf p).dt := by
    rw [hsys', hw']
    exact ⟨hdes.nonneg, hdes.orb, hdes.hs, hdes.expK⟩
  have ho' : ∀ i, sys'.orb i = i.val / (p.Nx.toNat * p.Ny.toNat) := by
    rw [hsys', hw']
    exact ho
  have hL' : 2 ≤ cfg.L := by show 2 ≤ p.L.toNat; omega
  have hd : cfg.prodBlen ∣ cfg.L := toNat_dvd hv.prodBlen hv.l hv.dvdL
  have hS : Sound sys' (phOf p) (Measure.dirac 0) cfg.L :=
    program_sound hmv.dt (Light.dirac 0) ho' (by omega) hmv.coupled hmv.omega
  have hmob : Mobile sys' (phOf p) (Measure.dirac 0) cfg.L cfg.noHS := program_mobile hmv hv ho' hD fnbase
  have hNN : sites p = p.Nx.toNat * p.Ny.toNat * p.Norb.toNat := by unfold sites; ring
  have hZ : holsteinZ sys' (phOf p) (Measure.dirac 0) (bondMatrix p) (fun o => p.U o) cfg.L ≠ 0 :=
    (partition_positive (Light.dirac 0) Measure.dirac_ne_zero hS.dt hS.omega (bondMatrix_symm p) (by omega)).ne'
  have hH := fun l F X Y => holsteinPair_eq (rest := Measure.dirac 0) ho' cfg.L l F X Y
  refine ⟨R, hR, fun hc hcL => ⟨?_, fun f hf o ho => ?_⟩, fun hc => ?_⟩
  · have h := full_equal_times_converge_ph (sys := sys') (cfg := cfg) hP hok hL' hd hmv.phonons hmv.nequil hmob (by omega)
      (by omega) hNN hmF hD hS hZ hc (by show p.neqlt ≤ (p.L.toNat : ℤ); omega) cnt
      (fun n => MeasData.allocate (su n).maxNsampl) (fun _ => rfl) hst R hR
    simp only [hH] at h
    exact h
  · refine TendstoInMeasure.congr (fun n => ?_) (ae_eq_refl _) ((hE0 hc hcL).2 f (by fin_cases hf <;> simp [phFields]) o ho)
    filter_upwards [hR0 n] with ω h
    have ha := (hmF' n ω h).1.ph
    show (R0 n ω).state.meas.ph.arr f o / (R0 n ω).state.meas.ph.sign = (mF n ω).ph.arr f o / (mF n ω).ph.sign
    rw [ha.avg f hf o ho, ha.sign]
  · have h := full_unequal_times_converge_ph (sys := sys') (cfg := cfg) hP hok hL' hd hmv.phonons hmv.nequil hmob (by omega)
      (by omega) hNN hmF hD hS hZ hc cnt (fun n => MeasData.allocate (su n).maxNsampl) (fun _ => rfl) hst R hR
    simp only [hH] at h
    exact h

/-- non-vacuity: the small system with two time slices and an ideal source satisfies all hypotheses -/
example : ∃ mc : Machine, ∃ sysF : Sys Seed (sites exU) MeasData, mc.Rounds ∧ Admissible exU ∧ Guards exU ∧
    Main.Full.sysOf mc exU = some sysF ∧ (∀ s, sysF.weight exU.L.toNat s (fun _ _ => 1) ≠ 0) ∧
    (∀ i : Fin (sites exU), exU.U ((i.val / (exU.Nx.toNat * exU.Ny.toNat) : ℕ) : ℤ) = 0 ∨
      ∀ l < exU.L.toNat, ∀ x : Field exU.L.toNat (sites exU),
        sysF.weight exU.L.toNat (Fock.extend (flipAt l i x)) (fun _ _ => 1)
          ≠ sysF.weight exU.L.toNat (Fock.extend x) (fun _ _ => 1)) ∧
    (idealRng (sites exU)).Lawful (sites exU) ∧
    (idealRng (sites exU)).Ideal (sites exU) (independent (drawDist (sites exU))) ∧
    0 ≤ exU.nequil ∧ 0 < exU.neqlt ∧ exU.neqlt ≤ exU.L ∧ 0 < exU.nuneqlt := by
  obtain ⟨mc, hmc⟩ := machine_exists
  obtain ⟨sys, hsys, hok, -⟩ := sys_defined hmc exU_admissible exU_guards.U exU_guards.shift (by decide) ""
  have : NeZero (sites exU) := ⟨by decide⟩
  obtain ⟨sysF, hF, hw', -⟩ := full_follows hmc exU_admissible exU_guards (by decide) hsys
  have hwt : ∀ s E, sysF.weight exU.L.toNat s E = sys.weight exU.L.toNat s E := fun s E => by rw [hw']; rfl
  have hdiag : ∀ i j, i ≠ j → bondMatrix exU i j = 0 := fun i j h => absurd (Subsingleton.elim (α := Fin 1) i j) h
  obtain ⟨ho, hD⟩ := program_describes exU_admissible exU_guards sys hsys
  obtain ⟨-, hr⟩ := atomic_conditions exU_admissible exU_guards hdiag (by decide) sys hsys
  refine ⟨mc, sysF, hmc, exU_admissible, exU_guards, hF, fun s => by
    rw [hwt]
    exact weight_one_site hmc exU_admissible exU_guards rfl sys hsys _ s _ fun _ _ => one_pos, fun i => ?_, idealRng_lawful _,
    idealRng_ideal _, by decide, by decide, by decide, by decide⟩
  rcases hr i with h | h
  · left
    rw [← ho i]
    exact (decoupled_iff hD (by norm_num [exU, exP]) i).1 h
  · right
    intro l hl x
    rw [hwt, hwt]
    exact h l hl x

/-- non-vacuity with phonons -/
example : ∃ mc : Machine, ∃ sysF : Sys Seed (sites exW) MeasData, mc.Rounds ∧ Admissible exW ∧ Guards exW ∧
    sites exW < 2 ^ 31 ∧ Movable exW ∧ Main.Full.sysOf mc exW = some sysF ∧ 0 < exW.neqlt ∧ exW.neqlt ≤ exW.L ∧
    0 < exW.nuneqlt := by
  obtain ⟨mc, hmc⟩ := machine_exists
  obtain ⟨sys, hsys, -⟩ := sys_defined hmc exW_admissible exW_guards.U exW_guards.shift (by decide) ""
  have : NeZero (sites exW) := ⟨by decide⟩
  obtain ⟨sysF, hF, -⟩ := full_follows hmc exW_admissible exW_guards (by decide) hsys
  refine ⟨mc, sysF, hmc, exW_admissible, exW_guards, by decide, ⟨rfl, by decide, Or.inl (by decide), ?_, fun _ _ => ?_,
    fun _ _ => ?_, ?_, ?_, ?_⟩, hF, by decide, by decide, by decide⟩ <;> norm_num [exW, exQ, exPph, exP]

end program

end Verif.MonteCarlo
