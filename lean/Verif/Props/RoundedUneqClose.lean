import Verif.Props.RoundedUneqMeasure
import Verif.Props.ExpectedUneq

/-! # Property C117, fourth part: tolerances of unequal time measurements -/

set_option autoImplicit false

namespace Verif.Rounded

open Filter Topology Matrix Verif.Lapack Verif.TimeFlow Verif.Greens Verif.Stratonovich Verif.MonteCarlo Verif.Ultra Verif.Fock
open Verif.Measurement Verif.Main

variable {σ : Type} {N : ℕ}

/-! ## Exact states -/

section exact

variable {M : Type} {sys : Sys σ N M} {L len : ℕ}

/-- exact matrices of a spin species with their products -/
noncomputable def exactTsm (sys : Sys σ N M) (L len : ℕ) (b : Bool) (s : ℕ → Fin N → Fin 2) : TSM N where
  B := exactB sys b s
  invB := fun l => invTimeStepMatrix sys.Ncell sys.invExpK (tableOf sys.hs b) (s l)
  Bprod := fun m => prodSeq (fun i => exactB sys b s (m * len + i)) len
  L := L
  prodBlen := len
  numBprod := L / len

theorem exactTsm_inv (h : Sound sys L) (hL : 0 < L) (hd : len ∣ L) (b : Bool) (s : ℕ → Fin N → Fin 2) :
    SpinInv (exactB sys b s) L len 0 (exactTsm sys L len b s) (exactG (exactB sys b s) L 0) := by
  have hp : 0 < len := Nat.pos_of_dvd_of_pos hd hL
  refine ⟨⟨⟨hp, Nat.div_pos (Nat.le_of_dvd hL hd) hp, (Nat.div_mul_cancel hd).symm⟩, rfl, rfl⟩, fun k _ => ⟨rfl, h.inverse b s k⟩,
    fun m _ _ => rfl, exactG_good (h.det_ne hL b s 0)⟩

end exact

/-! ## Tolerances -/

section tolerances

variable [NeZero N] {sys : Sys σ N MeasData} {cfg : Cfg} {Nx Ny Norb : ℕ} {shift : ℤ} {junk : ℤ → ℤ} {dt : ℝ} {omega : ℕ → ℝ}
  {alg : BlockCyclic.QRs N} {tau : BlockCyclic.Buf} {old : GreensUneq.Arrays}

omit [NeZero N] in
theorem SpinNear.congr {M : Type} {sys : Sys σ N M} {ar : Arith N} {tab : Tables N} {L len l : ℕ} {s s' : ℕ → Fin N → Fin 2}
    {b : Bool} {e : ℝ} {tsm : TSM N} {G : GreensFn N} (h : SpinNear ar sys tab L len l s b e tsm G) (hs : ∀ l < L, s l = s' l) :
    SpinNear ar sys tab L len l s' b e tsm G := by
  refine ⟨h.td, fun j hj => ?_, h.fresh, h.near.congr (exactB_congr hs)⟩
  rw [← (slices_congr (hs j hj)).1, ← (slices_congr (hs j hj)).2]
  exact h.mats j hj

/-- the exact unequal time measurement of a field -/
theorem uneq_exact [Nonempty σ] (h : Sound sys cfg.L) (hL : 0 < cfg.L) (hlen : 0 < cfg.prodBlen) (hd : cfg.prodBlen ∣ cfg.L)
    (h2 : 2 * cfg.prodBlen ≤ cfg.L) (hx : 0 < Nx) (hy : 0 < Ny) (hN : N = Nx * Ny * Norb) (hs : 0 ≤ shift)
    (hm : sys.meas = realMeas Norb (Nx * Ny) cfg.L (Maps.construct Nx Ny shift junk) dt omega alg tau old) (m₀ : MeasData)
    (x : Field cfg.L N) : ∃ a₀, Measurement.accumulateUneq Norb (Nx * Ny) cfg.L (Maps.construct Nx Ny shift junk)
        (((exactG (exactB sys false (extend x)) cfg.L 0).sgndet * (exactG (exactB sys true (extend x)) cfg.L 0).sgndet : ℤ) : ℝ)
        ((GreensUneq.exactG (exactB sys false (extend x)) cfg.L).cur cfg.L)
        ((GreensUneq.exactG (exactB sys true (extend x)) cfg.L).cur cfg.L) m₀.uneq = some a₀ ∧
      ∀ (φ : MeasData → ℝ) (q : ℕ → Field cfg.L N → ℝ) (qu : Field cfg.L N → ℝ), Adds sys cfg.L cfg.prodBlen φ q qu →
        φ { m₀ with uneq := a₀ } = φ m₀ + qu x := by
  have iu := exactTsm_inv h hL hd false (extend x)
  have id := exactTsm_inv h hL hd true (extend x)
  have hnum : 2 ≤ cfg.L / cfg.prodBlen := (Nat.le_div_iff_mul_le hlen).2 h2
  have hcomp : ∀ b, ∃ A, GreensUneq.compute alg (exactTsm sys cfg.L cfg.prodBlen b (extend x)) cfg.L tau old = some A ∧
      A.toCur N cfg.L = (GreensUneq.exactG (exactB sys b (extend x)) cfg.L).cur cfg.L := by
    intro b
    have ib := exactTsm_inv h hL hd b (extend x)
    exact GreensUneq.compute_toCur alg (exactTsm sys cfg.L cfg.prodBlen b (extend x)) ib.td.dims (fun m _ => rfl) hnum
      (fun l _ => h.inverse b _ l) (h.det_ne hL b _ 0) tau old
  obtain ⟨Au, u1, u2⟩ := hcomp false
  obtain ⟨Ad, d1, d2⟩ := hcomp true
  have hsg : ((((exactG (exactB sys false (extend x)) cfg.L 0).sgndet * (exactG (exactB sys true (extend x)) cfg.L 0).sgndet : ℤ) : ℝ)) = 1
      ∨ ((((exactG (exactB sys false (extend x)) cfg.L 0).sgndet * (exactG (exactB sys true (extend x)) cfg.L 0).sgndet : ℤ) : ℝ)) = -1 := by
    rcases iu.good.sgn with h | h <;> rcases id.good.sgn with h' | h' <;> simp [h, h']
  obtain ⟨est, -, e2⟩ := accumulateUneq_estimates hx hy hN shift hs junk cfg.L
    (GreensUneq.exactG (exactB sys false (extend x)) cfg.L) (GreensUneq.exactG (exactB sys true (extend x)) cfg.L)
    (GreensUneq.exactG_start _ _) (GreensUneq.exactG_start _ _) _ hsg
  refine ⟨_, e2 m₀.uneq, fun φ q qu hq => ?_⟩
  obtain ⟨r⟩ := (inferInstance : Nonempty σ)
  let st : State σ N MeasData := {
    rng := r
    s := extend x
    X := fun _ _ => 0
    expX := fun _ _ => 1
    tsmU := exactTsm sys cfg.L cfg.prodBlen false (extend x)
    tsmD := exactTsm sys cfg.L cfg.prodBlen true (extend x)
    Gu := exactG (exactB sys false (extend x)) cfg.L 0
    Gd := exactG (exactB sys true (extend x)) cfg.L 0
    cnt := ⟨0, 0, 0, 0, 0, 0⟩
    meas := m₀ }
  have hI : Inv sys (fun _ _ => 1) cfg.L cfg.prodBlen 0 st := ⟨iu, id⟩
  have := hq.uneq st { m₀ with uneq := _ } hI (by
    rw [hm]
    show (GreensUneq.compute alg (exactTsm sys cfg.L cfg.prodBlen false (extend x)) cfg.L tau old).bind _ = _
    rw [u1, Option.bind_some]
    show (GreensUneq.compute alg (exactTsm sys cfg.L cfg.prodBlen true (extend x)) cfg.L tau old).bind _ = _
    rw [d1, Option.bind_some, u2, d2]
    show (Measurement.accumulateUneq _ _ _ _ _ _ _ m₀.uneq).bind _ = _
    rw [e2 m₀.uneq, Option.bind_some]
    rfl)
  rw [show st.s = extend x from rfl, fieldOf_extend] at this
  exact this

/-- unequal time measurements in rounded arithmetic -/
theorem uneqClose [Nonempty σ] (h : Sound sys cfg.L) (hL : 0 < cfg.L) (hlen : 0 < cfg.prodBlen) (hd : cfg.prodBlen ∣ cfg.L)
    (h2 : 2 * cfg.prodBlen ≤ cfg.L) (hx : 0 < Nx) (hy : 0 < Ny) (hN : N = Nx * Ny * Norb) (hs : 0 ≤ shift)
    (hm : sys.meas = realMeas Norb (Nx * Ny) cfg.L (Maps.construct Nx Ny shift junk) dt omega alg tau old)
    (r : Fin 2 → Rec) {q : Fin 2 → ℕ → Field cfg.L N → ℝ} {qu : Fin 2 → Field cfg.L N → ℝ}
    (hq : ∀ a, Adds sys cfg.L cfg.prodBlen (r a).val (q a) (qu a)) {k S : ℕ} (hS : N * (cfg.L / cfg.prodBlen) ≤ S)
    {η : ℝ} (hη : 0 < η) : ∃ δ, 0 < δ ∧ δ ≤ η ∧ ∀ (ar : Arith N) (bl : BlockArith) (tab : Tables N) (u A : ℝ), 0 ≤ u →
      ar.Within k u → bl.Within S k u → tab.Within sys u → (A + 1) * u ≤ δ → u ≤ δ →
      UneqClose ar sys tab cfg.L cfg.prodBlen
        (roundMeasAll Norb (Nx * Ny) cfg.L (Maps.construct Nx Ny shift junk) tau old sys.meas ar bl) (fun a => (r a).val) qu δ A η := by
  obtain ⟨δ, d1, d2, d3⟩ := uniform_fin (X := Field cfg.L N)
    (α := (Arith N × BlockArith × Tables N × ℝ) × (TSM N × GreensFn N) × (TSM N × GreensFn N) × MeasData)
    (R := fun x δ a => (0 ≤ a.1.2.2.2 ∧ a.1.2.2.2 ≤ δ ∧ a.1.1.Within k a.1.2.2.2 ∧ a.1.2.1.Within S k a.1.2.2.2 ∧
        a.1.2.2.1.Within sys a.1.2.2.2) ∧ (∀ i, (|(r i).val a.2.2.2| + 1) * a.1.2.2.2 ≤ δ) ∧
      SpinNear a.1.1 sys a.1.2.2.1 cfg.L cfg.prodBlen 0 (extend x) false δ a.2.1.1 a.2.1.2 ∧
      SpinNear a.1.1 sys a.1.2.2.1 cfg.L cfg.prodBlen 0 (extend x) true δ a.2.2.1.1 a.2.2.1.2)
    (p := fun x a => ∃ m', (roundMeasAll Norb (Nx * Ny) cfg.L (Maps.construct Nx Ny shift junk) tau old sys.meas a.1.1 a.1.2.1).uneq
        (a.2.1.2.sgndet * a.2.2.1.2.sgndet) a.2.1.1 a.2.2.1.1 a.2.2.2 = some m' ∧
      ∀ i, |(r i).val m' - (r i).val a.2.2.2 - qu i x| ≤ η) hη (fun x U hU => by
    have hw := squeeze_zero (fun t => t.2.1.1) (fun t => t.2.1.2.1) hU
    have hal : Along U (fun t => t.1.2.1.1) k (fun t => t.1.2.1.2.2.2) := ⟨hw, Eventually.of_forall fun t => t.2.1.2.2.1⟩
    have hbl : BAlong U (fun t => t.1.2.1.2.1) S k (fun t => t.1.2.1.2.2.2) := ⟨hw, Eventually.of_forall fun t => t.2.1.2.2.2.1⟩
    have hsl := fun (b : Bool) (l : ℕ) => slices_lim (sys := sys) hal (tab := fun t => t.1.2.1.2.2.1)
      (V := fun t => tableOf t.1.2.1.2.2.1.hs b) (V₀ := tableOf sys.hs b) (Eventually.of_forall fun t => t.2.1.2.2.2.2)
      (fun v i => val_lim hw fun t => t.2.1.2.2.2.2.table b v i) (extend x) l
    obtain ⟨Au, Au₀, u1, u2, u3⟩ := compute_lim hal hbl (tsm := fun t => t.1.2.2.1.1) (B := exactB sys false (extend x))
      (invB := fun l => invTimeStepMatrix sys.Ncell sys.invExpK (tableOf sys.hs false) (extend x l)) (L := cfg.L) (len := cfg.prodBlen)
      (fun t => t.2.2.2.1.td) (fun t => t.2.2.2.1.fresh.all _ (dvd_zero _))
      (fun l hl => (hsl false l).1.congr' (Eventually.of_forall fun t => (t.2.2.2.1.mats l hl).1.symm))
      (fun l hl => (hsl false l).2.congr' (Eventually.of_forall fun t => (t.2.2.2.1.mats l hl).2.symm))
      (fun l _ => h.inverse false _ l) hlen h2 hS (h.det_ne hL false _ 0) tau old
    obtain ⟨Ad, Ad₀, v1, v2, v3⟩ := compute_lim hal hbl (tsm := fun t => t.1.2.2.2.1.1) (B := exactB sys true (extend x))
      (invB := fun l => invTimeStepMatrix sys.Ncell sys.invExpK (tableOf sys.hs true) (extend x l)) (L := cfg.L) (len := cfg.prodBlen)
      (fun t => t.2.2.2.2.td) (fun t => t.2.2.2.2.fresh.all _ (dvd_zero _))
      (fun l hl => (hsl true l).1.congr' (Eventually.of_forall fun t => (t.2.2.2.2.mats l hl).1.symm))
      (fun l hl => (hsl true l).2.congr' (Eventually.of_forall fun t => (t.2.2.2.2.mats l hl).2.symm))
      (fun l _ => h.inverse true _ l) hlen h2 hS (h.det_ne hL true _ 0) tau old
    obtain ⟨a₀, e1, e2⟩ := uneq_exact h hL hlen hd h2 hx hy hN hs hm (MeasData.allocate 0) x
    rw [← u3, ← v3] at e1
    obtain ⟨a, a1, a2, a3⟩ := accumulateUneq_lim (U := U) hal.ops Norb (Nx * Ny) cfg.L (Maps.construct Nx Ny shift junk)
      (u2.toCur N cfg.L) (v2.toCur N cfg.L) (Nat.mul_pos hx hy) _ (m := fun t => t.1.2.2.2.2.uneq) e1
    have key := fun i => (r i).uneq_lim (U := U) (m := fun t => t.1.2.2.2.2) (m₀ := MeasData.allocate 0)
      (w := fun t => t.1.2.1.2.2.2) (x := qu i x) a2 a3 (e2 _ _ _ (hq i))
      (squeeze_zero (fun t => mul_nonneg (by positivity) t.2.1.1) (fun t => t.2.2.1 i) hU)
    filter_upwards [eventually_all.2 fun i => Metric.tendsto_nhds.1 (key i) η hη, u1, v1] with t ht tu td
    refine ⟨{ t.1.2.2.2.2 with uneq := a t }, ?_, fun i => ?_⟩
    · have s1 := t.2.2.2.1.near.sgndet
      have s2 := t.2.2.2.2.near.sgndet
      have a1 := a1 t
      rw [← s1, ← s2] at a1
      show (compute t.1.2.1.1 t.1.2.1.2.1 t.1.2.2.1.1 cfg.L tau old).bind _ = _
      rw [tu, Option.bind_some]
      show (compute t.1.2.1.1 t.1.2.1.2.1 t.1.2.2.2.1.1 cfg.L tau old).bind _ = _
      rw [td, Option.bind_some]
      show (accumulateUneq _ _ _ _ _ _ _ _ _).bind _ = _
      rw [a1, Option.bind_some]
      rfl
    · have := ht i
      rw [Real.dist_eq] at this
      exact this.le)
  refine ⟨δ, d1, d2, fun ar bl tab u A hu0 har hbl htab hA hu => ?_⟩
  intro s Gu Gd tU tD m hU hD hΦ
  have agree : ∀ l < cfg.L, s l = extend (fieldOf cfg.L s) l := fun l hl => (extend_fieldOf s l hl).symm
  exact d3 (fieldOf cfg.L s) ((ar, bl, tab, u), (tU, Gu), (tD, Gd), m) ⟨⟨hu0, hu, har, hbl, htab⟩,
    fun i => (mul_le_mul_of_nonneg_right (by have := hΦ i; linarith) hu0).trans hA, hU.congr agree, hD.congr agree⟩

end tolerances

end Verif.Rounded
