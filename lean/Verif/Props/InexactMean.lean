import Verif.Props.Inexact
import Verif.Props.ConvergenceProgram

/-! # Property C113: expectation values from runs in an inexact arithmetic -/

set_option autoImplicit false

namespace Verif.MonteCarlo

open MeasureTheory Verif.Metropolis Verif.Fock Verif.Greens Verif.Progress Verif.Ergodic Verif.Rough Verif.Measurement Verif.Lattice
open Verif.Main Verif.Random Verif.Params

variable {σ : Type} {N : ℕ} {M V : Type}

/-! ## Specification -/

/-- Quotients of two recorded quantities, `φ` and `ψ` in the model with real numbers, tolerate an inexact arithmetic: there are
a constant `K` and contributions `q`, `qu`, `q'`, `qu'` of a field to `φ` and `ψ` such that in any arithmetic whose recorded
quantities `acc`, `acc'` track these contributions with errors `ε` and `η` for `n` iterations, the quotient then differs by less
than `K (ε + η) + δ` from `T`, except with probability `K / (n δ²)`. -/
def Robust [MeasurableSpace σ] (P : Measure σ) (sys : Sys σ N M) (cfg : Cfg) (φ ψ : M → ℝ) (T : ℝ) : Prop :=
  ∃ (q : ℕ → Field cfg.L N → ℝ) (qu : Field cfg.L N → ℝ) (q' : ℕ → Field cfg.L N → ℝ) (qu' : Field cfg.L N → ℝ),
    Adds sys cfg.L cfg.prodBlen φ q qu ∧ Adds sys cfg.L cfg.prodBlen ψ q' qu' ∧
    ∃ K, 0 < K ∧ ∀ (V : Type) (num : Numerics N V) (acc acc' : V → ℝ) (ε η : ℝ) (I : ℕ → (ℕ → Fin N → Fin 2) → V → Prop)
      (J : ℕ → ℕ → (ℕ → Fin N → Fin 2) → V → Prop) (n : ℕ), 0 ≤ ε → 0 ≤ η → ε + η ≤ 1 / K →
      Tracking sys cfg num ((cfg.nequil.toNat + n) * cfg.L) ε acc q qu η I J →
      Tracking sys cfg num ((cfg.nequil.toNat + n) * cfg.L) ε acc' q' qu' η I J →
      ∀ (s : ℕ → Fin N → Fin 2) (v : V), I 0 s v → acc v = 0 → acc' v = 0 → ∀ (p : Prog) (δ : ℝ), 0 < n → 0 < δ → δ ≤ 1 →
        P.real {r | ¬ ∃ R, simLoop (roughBody num sys.rng cfg.L) (fun _ => false) (cfg.nequil.toNat + n) 0 ⟨r, s, v⟩ p = some R ∧
          |acc R.state.num / acc' R.state.num - T| < K * (ε + η) + δ} ≤ K / (n * δ ^ 2)

/-- the same for the operations of the model with real numbers, where the factors have relative errors of at most `u`, in runs
from the initial state of the program -/
def Noisy [NeZero N] [MeasurableSpace σ] (P : Measure σ) (sys : Sys σ N M) (cfg : Cfg) (φ ψ : M → ℝ) (T : ℝ) : Prop :=
  ∃ K, 0 < K ∧ ∀ (θ : (ℕ → Fin N → Fin 2) → ℕ → State σ N M → Fin N → ℝ) (u : ℝ), (∀ s l v i, |θ s l v i| ≤ u) → u ≤ 1 / K →
    ∀ (r₀ : σ) (s : ℕ → Fin N → Fin 2) (X expX : ℕ → Fin N → ℝ) (cnt : Counters) (meas : M) (v : State σ N M),
    φ meas = 0 → ψ meas = 0 → startState sys cfg r₀ s X expX cnt meas = some v →
    ∀ (n : ℕ) (p : Prog) (δ : ℝ), 0 < n → 0 < δ → δ ≤ 1 →
      P.real {r | ¬ ∃ R, simLoop (roughBody (noisyNumerics sys cfg θ) sys.rng cfg.L) (fun _ => false) (cfg.nequil.toNat + n) 0
          ⟨r, s, v⟩ p = some R ∧
        |φ R.state.num.meas / ψ R.state.num.meas - T| < K * u + δ} ≤ K / (n * δ ^ 2)

/-! ## Proofs -/

section ratio

variable {sys : Sys σ N M} {cfg : Cfg} {num : Numerics N V} {ε : ℝ} {acc acc' : V → ℝ} {q q' : ℕ → Field cfg.L N → ℝ}
  {qu qu' : Field cfg.L N → ℝ} {η : ℝ} {I : ℕ → (ℕ → Fin N → Fin 2) → V → Prop} {J : ℕ → ℕ → (ℕ → Fin N → Fin 2) → V → Prop} {τ : ℕ}

theorem Tracking.sub_mul (T : Tracking sys cfg num τ ε acc q qu η I J) (T' : Tracking sys cfg num τ ε acc' q' qu' η I J) (t : ℝ) :
    Tracking sys cfg num τ ε (fun v => acc v - t * acc' v) (fun l x => q l x - t * q' l x) (fun x => qu x - t * qu' x)
      (η * (1 + |t|)) I J where
  wrap k hk s v h := ⟨(T.wrap k hk s v h).1, by rw [(T.wrap k hk s v h).2, (T'.wrap k hk s v h).2]⟩
  stay := T.stay
  factor := T.factor
  update k hk j s v i h h0 := ⟨(T.update k hk j s v i h h0).1, by
    rw [(T.update k hk j s v i h h0).2, (T'.update k hk j s v i h h0).2]⟩
  finish k hk s v h := by
    obtain ⟨v1, a1, a2, a3⟩ := T.finish k hk s v h
    obtain ⟨v2, b1, -, b3⟩ := T'.finish k hk s v h
    obtain rfl : v1 = v2 := Option.some.inj (a1.symm.trans b1)
    refine ⟨v1, a1, a2, ?_⟩
    by_cases hn : cfg.nequil ≤ ((k / cfg.L : ℕ) : ℤ)
    · rw [if_pos hn] at a3 b3 ⊢
      have e : gain cfg (fun l x => q l x - t * q' l x) (fun x => qu x - t * qu' x) k (fieldOf cfg.L s)
          = gain cfg q qu k (fieldOf cfg.L s) - t * gain cfg q' qu' k (fieldOf cfg.L s) := by
        unfold gain
        split <;> split <;> ring
      rw [e]
      have e2 : acc v1 - t * acc' v1 - (acc v - t * acc' v) - (gain cfg q qu k (fieldOf cfg.L s) - t * gain cfg q' qu' k (fieldOf cfg.L s))
          = (acc v1 - acc v - gain cfg q qu k (fieldOf cfg.L s)) - t * (acc' v1 - acc' v - gain cfg q' qu' k (fieldOf cfg.L s)) := by
        ring
      rw [e2]
      refine (abs_sub _ _).trans ?_
      rw [abs_mul]
      have := mul_le_mul_of_nonneg_left b3 (abs_nonneg t)
      linarith
    · rw [if_neg hn] at a3 b3 ⊢
      rw [a3, b3]

variable [MeasurableSpace σ] {P : Measure σ}

set_option maxHeartbeats 800000 in
theorem robust_ratio {φ ψ : M → ℝ} (hP : sys.rng.Ideal N P) (hpos : ∀ r, 0 < (sys.rng.uniform r).1) (hL : 0 < cfg.L)
    (hne : 0 ≤ cfg.nequil) (hw : ∀ x : Field cfg.L N, sys.weight cfg.L (Fock.extend x) (fun _ _ => 1) ≠ 0)
    (hr : Responsive sys cfg.L)
    (hadd : Adds sys cfg.L cfg.prodBlen φ q qu) (hq : ∀ l, q l ∈ insensitive sys cfg.L)
    (hqu : qu ∈ insensitive sys cfg.L)
    (hadd' : Adds sys cfg.L cfg.prodBlen ψ q' qu') (hq' : ∀ l, q' l ∈ insensitive sys cfg.L)
    (hqu' : qu' ∈ insensitive sys cfg.L) (t : ℝ) (h1 : ∀ l < cfg.L, wsum sys cfg.L (q l) = t * wsum sys cfg.L (q' l))
    (h2 : wsum sys cfg.L qu = t * wsum sys cfg.L qu') (h3 : ∀ l < cfg.L, 0 ≤ wsum sys cfg.L (q' l))
    (h4 : 0 ≤ wsum sys cfg.L qu')
    (h5 : (∃ l < cfg.L, 0 < cfg.neqlt ∧ cfg.neqlt ∣ (l : ℤ) + 1 ∧ 0 < wsum sys cfg.L (q' l)) ∨
      0 < cfg.nuneqlt ∧ 0 < wsum sys cfg.L qu') : Robust P sys cfg φ ψ t := by
  have := hP.prob
  have hm0 : 0 < cycleLen cfg * cfg.L := Nat.mul_pos (by unfold cycleLen; omega) hL
  have hw1 : 0 < wsum sys cfg.L fun _ => 1 := by
    unfold wsum
    simp only [mul_one]
    exact Finset.sum_pos (fun x _ => wt_pos hw x) ⟨fun _ _ => 0, Finset.mem_univ _⟩
  have hsub : ∀ g g' : Field cfg.L N → ℝ, wsum sys cfg.L (fun x => g x - t * g' x)
      = wsum sys cfg.L g - t * wsum sys cfg.L g' := by
    intro g g'
    unfold wsum
    rw [Finset.mul_sum, ← Finset.sum_sub_distrib]
    exact Finset.sum_congr rfl fun x _ => by ring
  have hnn : ∀ c : Fin (cycleLen cfg * cfg.L), 0 ≤ wsum sys cfg.L (gain cfg q' qu' c.val) := by
    intro c
    rw [wsum_gain]
    refine add_nonneg ?_ ?_
    · split
      · exact h3 _ (Nat.mod_lt _ hL)
      · exact le_rfl
    · split
      · exact h4
      · exact le_rfl
  have hspos : 0 < ∑ c : Fin (cycleLen cfg * cfg.L), wsum sys cfg.L (gain cfg q' qu' c.val) := by
    refine Finset.sum_pos' (fun c _ => hnn c) ?_
    have hle : cfg.L ≤ cycleLen cfg * cfg.L := Nat.le_mul_of_pos_left _ (by unfold cycleLen; omega)
    rcases h5 with ⟨l, hl, ha, hb, hc⟩ | ⟨ha, hb⟩
    · refine ⟨⟨l, by omega⟩, Finset.mem_univ _, ?_⟩
      rw [wsum_gain]
      simp only [Nat.mod_eq_of_lt hl]
      rw [if_pos ⟨ha, hb⟩]
      refine add_pos_of_pos_of_nonneg hc ?_
      split
      · exact h4
      · exact le_rfl
    · refine ⟨⟨cfg.L - 1, by omega⟩, Finset.mem_univ _, ?_⟩
      rw [wsum_gain]
      have e : (cfg.L - 1) % cfg.L = cfg.L - 1 := Nat.mod_eq_of_lt (by omega)
      have e' : (cfg.L - 1) / cfg.L = 0 := Nat.div_eq_of_lt (by omega)
      simp only [e, e']
      rw [if_pos (c := cfg.L - 1 + 1 = cfg.L ∧ _) ⟨by omega, ha, by simp⟩]
      refine add_pos_of_nonneg_of_pos ?_ hb
      split
      · exact h3 _ (by omega)
      · exact le_rfl
  obtain ⟨C₁, hC₁, hA⟩ := inexact_long_runs (q := fun l x => q l x - t * q' l x) (qu := fun x => qu x - t * qu' x) hP hpos hL hne hw hr
    (fun l => (insensitive sys cfg.L).sub_mem (hq l) ((insensitive sys cfg.L).smul_mem t (hq' l)))
    ((insensitive sys cfg.L).sub_mem hqu ((insensitive sys cfg.L).smul_mem t hqu')) 0 (by
      rw [zero_mul]
      refine Finset.sum_eq_zero fun c _ => ?_
      rw [wsum_gain, hsub, hsub, h1 _ (Nat.mod_lt _ hL), h2, sub_self, sub_self, ite_self, ite_self, add_zero])
  set a := (∑ c : Fin (cycleLen cfg * cfg.L), wsum sys cfg.L (gain cfg q' qu' c.val))
      / ((cycleLen cfg * cfg.L : ℕ) * wsum sys cfg.L fun _ => 1) with ha
  have hden : 0 < ((cycleLen cfg * cfg.L : ℕ) : ℝ) * wsum sys cfg.L fun _ => 1 :=
    mul_pos (by exact_mod_cast hm0) hw1
  obtain ⟨C₂, hC₂, hS⟩ := inexact_long_runs hP hpos hL hne hw hr hq' hqu' a (by rw [ha]; exact (div_mul_cancel₀ _ hden.ne').symm)
  have hμ : 0 < cfg.L * a := mul_pos (by exact_mod_cast hL) (div_pos hspos hden)
  simp only [mul_zero, sub_zero] at hA
  generalize (cfg.L : ℝ) * a = μ at hS hμ
  refine ⟨q, qu, q', qu', hadd, hadd', ?_⟩
  set τ := 1 + |t| with hτ
  have hτ1 : 1 ≤ τ := by rw [hτ]; linarith [abs_nonneg t]
  have k1 : 0 ≤ 2 * C₁ * τ / μ := by positivity
  have k2 : 0 ≤ 4 * C₁ / μ := by positivity
  have k3 : 0 ≤ 8 * C₂ / μ := by positivity
  have k4 : 0 ≤ 16 * C₁ * (1 + τ) ^ 2 / μ ^ 2 := by positivity
  have k5 : 0 ≤ 256 * C₂ / μ ^ 2 := by positivity
  obtain ⟨K, hK⟩ : ∃ K, K = 1 + 2 * C₁ * τ / μ + 4 * C₁ / μ + 8 * C₂ / μ + 16 * C₁ * (1 + τ) ^ 2 / μ ^ 2 + 256 * C₂ / μ ^ 2 := ⟨_, rfl⟩
  have hK1 : 1 ≤ K := by linarith
  refine ⟨K, by linarith, ?_⟩
  intro V num acc acc' ε η I J n hε hη hs T T' s v h0 hv hv' p δ hn hδ hδ1
  have hn0 : (0 : ℝ) < n := by exact_mod_cast hn
  have hnδ : 0 < n * δ ^ 2 := by positivity
  by_cases hbig : n * δ ^ 2 ≤ K
  · exact measureReal_le_one.trans ((one_le_div hnδ).2 hbig)
  push Not at hbig
  have hnδ1 : n * δ ^ 2 ≤ n * δ := by
    refine mul_le_mul_of_nonneg_left ?_ hn0.le
    nlinarith
  have hnδ2 : n * δ ≤ n := mul_le_of_le_one_right hn0.le hδ1
  have hx1 : ε + η ≤ 1 := hs.trans ((div_le_one (by linarith)).2 hK1)
  have hxK : (ε + η) * K ≤ 1 := (le_div_iff₀ (by linarith)).1 hs
  have n1 : 4 * C₁ ≤ n * δ * μ := (div_le_iff₀ hμ).1 (by linarith)
  have n2 : 8 * C₂ ≤ n * μ := (div_le_iff₀ hμ).1 (by linarith)
  have n3 : 2 * C₁ * τ ≤ K * μ := (div_le_iff₀ hμ).1 (by linarith)
  have n4 : 8 * C₂ ≤ K * μ := (div_le_iff₀ hμ).1 (by linarith)
  have n5 : 8 * C₂ * (ε + η) ≤ μ := by
    have := mul_le_mul_of_nonneg_right n4 (add_nonneg hε hη)
    nlinarith
  have p1 := hA V num _ ε (η * τ) I J n hε (by positivity) (T.sub_mul T' t) s v h0 p (δ * (n * μ / 4)) (by positivity)
  have p2 := hS V num acc' ε η I J n hε hη T' s v h0 p (n * μ / 8) (by positivity)
  simp only [hv, hv', mul_zero, sub_zero] at p1 p2
  refine (measureReal_mono (s₂ := _ ∪ _) ?_).trans ((measureReal_union_le _ _).trans ((add_le_add p1 p2).trans ?_))
  · intro r hr
    by_contra hno
    rw [Set.mem_union, not_or] at hno
    obtain ⟨g1, g2⟩ := hno
    have g1 := not_not.1 g1
    have g2 := not_not.1 g2
    obtain ⟨R, e1, g1⟩ := g1
    obtain ⟨R', e2, g2⟩ := g2
    obtain rfl : R = R' := Option.some.inj (e1.symm.trans e2)
    refine hr ⟨R, e1, ?_⟩
    have hS' : n * μ / 2 ≤ acc' R.state.num := by
      have := (abs_lt.1 g2).1
      have := mul_le_mul_of_nonneg_left n5 hn0.le
      linarith
    have hS0 : 0 < acc' R.state.num := lt_of_lt_of_le (by positivity) hS'
    have e : acc R.state.num / acc' R.state.num - t = (acc R.state.num - t * acc' R.state.num) / acc' R.state.num := by
      field_simp
    rw [e, abs_div, abs_of_pos hS0, div_lt_iff₀ hS0]
    refine g1.trans_le (le_trans ?_ (mul_le_mul_of_nonneg_left hS' (by positivity)))
    have m1 : ε + η * τ ≤ τ * (ε + η) := by nlinarith
    have m2 := mul_le_mul_of_nonneg_left m1 (mul_nonneg hC₁ hn0.le)
    have m3 := mul_le_mul_of_nonneg_right n3 (mul_nonneg (add_nonneg hε hη) hn0.le)
    linarith
  · have hη1 : η * τ ≤ τ := mul_le_of_le_one_left (by linarith) (by linarith)
    have m1 : C₁ * n * (1 + η * τ) ^ 2 / (δ * (n * μ / 4)) ^ 2 ≤ 16 * C₁ * (1 + τ) ^ 2 / μ ^ 2 * (1 / (n * δ ^ 2)) := by
      have e : C₁ * n * (1 + η * τ) ^ 2 / (δ * (n * μ / 4)) ^ 2 = 16 * C₁ * (1 + η * τ) ^ 2 / μ ^ 2 * (1 / (n * δ ^ 2)) := by
        field_simp
        ring
      rw [e]
      have : 0 ≤ η * τ := by positivity
      gcongr
    have m2 : C₂ * n * (1 + η) ^ 2 / (n * μ / 8) ^ 2 ≤ 256 * C₂ / μ ^ 2 * (1 / (n * δ ^ 2)) := by
      have e : C₂ * n * (1 + η) ^ 2 / (n * μ / 8) ^ 2 = 64 * C₂ * (1 + η) ^ 2 / μ ^ 2 * (1 / n) := by
        field_simp
        ring
      rw [e]
      have h4' : (1 + η) ^ 2 ≤ 4 := by nlinarith
      refine mul_le_mul ?_ ?_ (by positivity) (by positivity)
      · refine div_le_div_of_nonneg_right ?_ (by positivity)
        nlinarith
      · refine one_div_le_one_div_of_le hnδ (by linarith)
    refine (add_le_add m1 m2).trans ?_
    rw [← add_mul, ← div_eq_mul_one_div]
    refine div_le_div_of_nonneg_right ?_ hnδ.le
    linarith

end ratio

/-- the exact operations with relative errors of the factors, from the initial state of the program -/
theorem Robust.noisy [NeZero N] [MeasurableSpace σ] {P : Measure σ} {sys : Sys σ N M} {cfg : Cfg} {φ ψ : M → ℝ} {T : ℝ}
    (h : Robust P sys cfg φ ψ T) (hP : sys.rng.Ideal N P) (hok : sys.Ok cfg.prodBlen) (hL : 0 < cfg.L) (hd : cfg.prodBlen ∣ cfg.L)
    (hp : cfg.usePhonons = false) (hme : ∀ gu gd m, sys.meas.eq gu gd m ≠ none)
    (hmu : 0 < cfg.nuneqlt → ∀ st : State σ N M, Inv sys (fun _ _ => 1) cfg.L cfg.prodBlen 0 st →
      sys.meas.uneq (st.Gu.sgndet * st.Gd.sgndet) st.tsmU st.tsmD st.meas ≠ none) :
    Noisy P sys cfg φ ψ T := by
  obtain ⟨q, qu, q', qu', h1, h2, K, hK, h⟩ := h
  obtain ⟨w, hw⟩ := quotient_bounded sys cfg.L
  have hw0 : 0 ≤ max w 0 := le_max_right _ _
  have hKw : 0 ≤ K * max w 0 := mul_nonneg hK.le hw0
  refine ⟨K * max w 0 + K + 2, by linarith, ?_⟩
  intro θ u hθ hu r₀ s X expX cnt meas v hφ hψ hv n p δ hn hδ hδ1
  have hu0 : 0 ≤ u := (abs_nonneg _).trans (hθ s 0 v 0)
  have hu1 : u * (K * max w 0 + K + 2) ≤ 1 := (le_div_iff₀ (by linarith)).1 hu
  have hw' : ∀ (s : ℕ → Fin N → Fin 2) l i, l < cfg.L →
      sys.weight cfg.L (flipField s l i) (fun _ _ => 1) / sys.weight cfg.L s (fun _ _ => 1) ≤ max w 0 :=
    fun s l i hl => (hw s l i hl).trans (le_max_left _ _)
  have hlt : u < 1 := by nlinarith [mul_nonneg hu0 hKw, mul_nonneg hu0 hK.le]
  have hi := startState_inv hok hL hd hp r₀ s X expX cnt meas v hv
  have hvs : v.s = s ∧ v.meas = meas := by
    unfold startState at hv
    simp only [Option.bind_eq_bind] at hv
    obtain ⟨gu, -, hv⟩ := Option.bind_eq_some_iff.1 hv
    obtain ⟨gd, -, hv⟩ := Option.bind_eq_some_iff.1 hv
    simp only [Option.pure_def, Option.some.injEq] at hv
    subst hv
    exact ⟨rfl, rfl⟩
  have h0 : ExactBefore sys cfg 0 s v := by
    unfold ExactBefore
    rw [Nat.zero_mod, ← hvs.1]
    exact hi
  have hε : max w 0 * u + 0 ≤ 1 / K := by
    rw [le_div_iff₀ hK]
    nlinarith [mul_nonneg hu0 hK.le]
  have := hP.prob
  refine le_trans (measureReal_mono ?_) ((h _ _ _ _ (max w 0 * u) 0 _ _ n (mul_nonneg hw0 hu0) le_rfl hε
    (noisy_tracking hok hL h1 hme hmu hlt hθ hw') (noisy_tracking hok hL h2 hme hmu hlt hθ hw') s v h0 (by rw [hvs.2]; exact hφ)
    (by rw [hvs.2]; exact hψ) p δ hn hδ hδ1).trans ?_)
  · intro r hr ⟨R, e, hR⟩
    refine hr ⟨R, e, hR.trans_le ?_⟩
    nlinarith [mul_nonneg hu0 hK.le]
  · refine div_le_div_of_nonneg_right (by linarith) (by positivity)

section thermal

variable [NeZero N] [MeasurableSpace σ] {P : Measure σ} {sys : Sys σ N MeasData} {cfg : Cfg}
  {Nx Ny Norb : ℕ} {shift : ℤ} {junk : ℤ → ℤ} {dt : ℝ} {omega : ℕ → ℝ}
  {alg : BlockCyclic.QRs N} {tau : BlockCyclic.Buf} {old : GreensUneq.Arrays} {K : Mat N} {U : ℕ → ℝ}

/-- C113, equal times -/
theorem equal_times_robust (hP : sys.rng.Ideal N P) (hpos : ∀ r, 0 < (sys.rng.uniform r).1) (hL : 0 < cfg.L)
    (hnq : 0 ≤ cfg.nequil) (hx : 0 < Nx) (hy : 0 < Ny)
    (hN : N = Nx * Ny * Norb) (hs : 0 ≤ shift)
    (hm : sys.meas = realMeas Norb (Nx * Ny) cfg.L (Maps.construct Nx Ny shift junk) dt omega alg tau old)
    (hK : K.IsSymm) (hD : Describes sys Norb K U dt)
    (hw : ∀ x : Field cfg.L N, sys.weight cfg.L (Fock.extend x) (fun _ _ => 1) ≠ 0) (hr : Responsive sys cfg.L)
    (h0 : 0 < cfg.neqlt) (h1 : cfg.neqlt ≤ cfg.L) :
    EqHolds Nx Ny Norb shift 0 (thermalMean (stepOf sys K U dt) cfg.L) fun f z v =>
      Robust P sys cfg (fun m => m.eq.arr f z) (fun m => m.eq.sign) v := by
  have hne : ∀ x : Field cfg.L N, signed sys cfg.L (Fock.extend x) (fun _ _ => 1) ≠ 0 := fun x h =>
    hw x (by rw [weight_eq, h, abs_zero])
  have hS := signedSum_pos (L := cfg.L) hD hK
  have hsg : wsum sys cfg.L (fun x => sgnOf sys cfg.L x * 1) = signedSum sys cfg.L := by
    rw [wsum_sgn]
    simp only [mul_one]
    rfl
  have hz : wsum sys cfg.L (fun _ => 0) = 0 := by unfold wsum; simp
  refine eqHolds_of_means hK hD hne fun f z V T hV hT => ?_
  refine robust_ratio (q' := fun _ x => sgnOf sys cfg.L x * 1) (qu' := fun _ => 0) hP hpos hL hnq hw hr
    (entry_adds hx hy hN hs hm f z V hV) (fun l => eq_mem V (l + 1)) zero_mem_insensitive
    (sign_adds hx hy hN hs hm) (fun _ => sgn_mem) zero_mem_insensitive T (fun l hl => ?_) ?_ (fun l _ => ?_) ?_ ?_
  · rw [wsum_average hne hS.ne' (fun s => V (greenAt sys cfg.L (l + 1) sys.hs.expVu s)
        (greenAt sys cfg.L (l + 1) sys.hs.expVd s)), hT l hl, hsg]
  · rw [hz, mul_zero]
  · rw [hsg]
    exact hS.le
  · rw [hz]
  · refine Or.inl ⟨cfg.neqlt.toNat - 1, by omega, h0, ?_, by rw [hsg]; exact hS⟩
    rw [show ((cfg.neqlt.toNat - 1 : ℕ) : ℤ) + 1 = cfg.neqlt by omega]

/-- C113, unequal times -/
theorem unequal_times_robust (hP : sys.rng.Ideal N P) (hpos : ∀ r, 0 < (sys.rng.uniform r).1) (hL : 0 < cfg.L)
    (hnq : 0 ≤ cfg.nequil) (hx : 0 < Nx) (hy : 0 < Ny)
    (hN : N = Nx * Ny * Norb) (hs : 0 ≤ shift)
    (hm : sys.meas = realMeas Norb (Nx * Ny) cfg.L (Maps.construct Nx Ny shift junk) dt omega alg tau old)
    (hK : K.IsSymm) (hD : Describes sys Norb K U dt)
    (hw : ∀ x : Field cfg.L N, sys.weight cfg.L (Fock.extend x) (fun _ _ => 1) ≠ 0) (hr : Responsive sys cfg.L)
    (h0 : 0 < cfg.nuneqlt) :
    UneqHolds Nx Ny Norb cfg.L shift 0 (Nx = 1 ↔ Ny = 1) (thermalPair (stepOf sys K U dt) cfg.L) fun f z v =>
      Robust P sys cfg (fun m => m.uneq.arr f z) (fun m => m.uneq.sign) v := by
  have hne : ∀ x : Field cfg.L N, signed sys cfg.L (Fock.extend x) (fun _ _ => 1) ≠ 0 := fun x h =>
    hw x (by rw [weight_eq, h, abs_zero])
  have hS := signedSum_pos (L := cfg.L) hD hK
  have hsg : wsum sys cfg.L (fun x => sgnOf sys cfg.L x * 1) = signedSum sys cfg.L := by
    rw [wsum_sgn]
    simp only [mul_one]
    rfl
  have hz : wsum sys cfg.L (fun _ => 0) = 0 := by unfold wsum; simp
  obtain ⟨a1, a2⟩ := uneq_adds (len := cfg.prodBlen) hx hy hN hs hm
  refine uneqHolds_of_means hK hD hne fun f z V T hV hT => ?_
  refine robust_ratio (q' := fun _ _ => 0) (qu' := fun x => sgnOf sys cfg.L x * 1) hP hpos hL hnq hw hr
    (a2 f z V hV) (fun l => zero_mem_insensitive) (uneq_mem V) a1 (fun _ => zero_mem_insensitive) sgn_mem T
    (fun l hl => ?_) ?_ (fun l _ => ?_) ?_ (Or.inr ⟨h0, ?_⟩)
  · rw [hz, mul_zero]
  · rw [wsum_average hne hS.ne' (fun s => V (timeGreen sys cfg.L sys.hs.expVu s)
        (timeGreen sys cfg.L sys.hs.expVd s)), hT, hsg]
  · rw [hz]
  · rw [hsg]
    exact hS.le
  · rw [hsg]
    exact hS

end thermal

/-! ## The program -/

section program

variable [MeasurableSpace σ] {P : Measure σ} {mc : Machine} {p : SimParams ℝ}

/-- C113: For the parameters of a run without phonons, every result is robust: in any arithmetic with small errors, the quotient
of a recorded quantity and the recorded sign comes close to the expectation value in the Hubbard model. -/
theorem program_robust [NeZero (sites p)] (hmc : mc.Rounds) (hv : Admissible p) (hg : Guards p)
    (hN : sites p < 2 ^ 31) (fnbase : String) (rng : Rng σ) (hlaw : rng.Lawful (sites p))
    (hP : rng.Ideal (sites p) P) (sys : Sys Seed (sites p) MeasData) (hsys : sysOf mc p = some sys)
    (hw : ∀ s, sys.weight p.L.toNat s (fun _ _ => 1) ≠ 0)
    (hr : ∀ i : Fin (sites p), p.U ((i.val / (p.Nx.toNat * p.Ny.toNat) : ℕ) : ℤ) = 0 ∨
      ∀ l < p.L.toNat, ∀ x : Field p.L.toNat (sites p),
        sys.weight p.L.toNat (Fock.extend (flipAt l i x)) (fun _ _ => 1)
          ≠ sys.weight p.L.toNat (Fock.extend x) (fun _ _ => 1))
    (hnq : 0 ≤ p.nequil) :
    let L := p.L.toNat
    let cfg := (mkSetup mc p fnbase).cfg
    let sys' := sys.withRng rng
    (0 < p.neqlt → p.neqlt ≤ p.L →
        EqHolds p.Nx.toNat p.Ny.toNat p.Norb.toNat p.pbcShift 0 (thermalMean (hubbardStep p) L) fun f z v =>
          Robust P sys' cfg (fun m => m.eq.arr f z) (fun m => m.eq.sign) v) ∧
      (0 < p.nuneqlt →
        UneqHolds p.Nx.toNat p.Ny.toNat p.Norb.toNat L p.pbcShift 0 (p.Nx.toNat = 1 ↔ p.Ny.toNat = 1)
          (thermalPair (hubbardStep p) L) fun f z v =>
          Robust P sys' cfg (fun m => m.uneq.arr f z) (fun m => m.uneq.sign) v) := by
  intro L cfg sys'
  have h1 := hv.norb
  have h2 := hv.nx
  have h3 := hv.ny
  have h4 := hv.l
  obtain ⟨sys0, e0, -, -, hmeas⟩ := sys_defined hmc hv hg.U hg.shift hN fnbase
  obtain rfl : sys0 = sys := Option.some.inj (e0.symm.trans hsys)
  have hL : 0 < cfg.L := by show 0 < p.L.toNat; omega
  have hw' : ∀ x : Field cfg.L (sites p), sys'.weight cfg.L (Fock.extend x) (fun _ _ => 1) ≠ 0 := fun x => hw _
  have hP' : sys'.rng.Ideal (sites p) P := hP
  have hpos : ∀ r, 0 < (sys'.rng.uniform r).1 := hlaw.uniform_pos
  obtain ⟨ho, hdes⟩ := program_describes hv hg sys0 hsys
  have hD : Describes sys' p.Norb.toNat (bondMatrix p) (fun o => p.U o) p.dt := ⟨hdes.nonneg, hdes.orb, hdes.hs, hdes.expK⟩
  have hstep : stepOf sys' (bondMatrix p) (fun o => p.U o) p.dt = hubbardStep p := by
    unfold stepOf hubbardStep
    have : ∀ i, sys'.orb i = i.val / (p.Nx.toNat * p.Ny.toNat) := ho
    simp only [this]
  have hNN : sites p = p.Nx.toNat * p.Ny.toNat * p.Norb.toNat := by unfold sites; ring
  have hr' : Responsive sys' cfg.L := by
    intro i
    rcases hr i with h | h
    · exact Or.inl (decoupled_of_zero hD (by rw [show sys'.orb i = _ from ho i]; exact h))
    · exact Or.inr h
  refine ⟨fun hc hcL => ?_, fun hc => ?_⟩
  · have h := equal_times_robust hP' hpos hL hnq (by omega) (by omega) hNN hg.shift hmeas (bondMatrix_symm p) hD
      hw' hr' hc (by show p.neqlt ≤ (p.L.toNat : ℤ); omega)
    rw [hstep] at h
    exact h
  · have h := unequal_times_robust hP' hpos hL hnq (by omega) (by omega) hNN hg.shift hmeas (bondMatrix_symm p) hD
      hw' hr' hc
    rw [hstep] at h
    exact h

/-- C113 for relative errors of the factors -/
theorem program_noisy [NeZero (sites p)] (hmc : mc.Rounds) (hv : Admissible p) (hg : Guards p)
    (hN : sites p < 2 ^ 31) (hp : p.usePhonons = false) (fnbase : String) (rng : Rng σ) (hlaw : rng.Lawful (sites p))
    (hP : rng.Ideal (sites p) P) (sys : Sys Seed (sites p) MeasData) (hsys : sysOf mc p = some sys)
    (hw : ∀ s, sys.weight p.L.toNat s (fun _ _ => 1) ≠ 0)
    (hr : ∀ i : Fin (sites p), p.U ((i.val / (p.Nx.toNat * p.Ny.toNat) : ℕ) : ℤ) = 0 ∨
      ∀ l < p.L.toNat, ∀ x : Field p.L.toNat (sites p),
        sys.weight p.L.toNat (Fock.extend (flipAt l i x)) (fun _ _ => 1)
          ≠ sys.weight p.L.toNat (Fock.extend x) (fun _ _ => 1))
    (hnq : 0 ≤ p.nequil) :
    let L := p.L.toNat
    let cfg := (mkSetup mc p fnbase).cfg
    let sys' := sys.withRng rng
    (0 < p.neqlt → p.neqlt ≤ p.L →
        EqHolds p.Nx.toNat p.Ny.toNat p.Norb.toNat p.pbcShift 0 (thermalMean (hubbardStep p) L) fun f z v =>
          Noisy P sys' cfg (fun m => m.eq.arr f z) (fun m => m.eq.sign) v) ∧
      (0 < p.nuneqlt →
        UneqHolds p.Nx.toNat p.Ny.toNat p.Norb.toNat L p.pbcShift 0 (p.Nx.toNat = 1 ↔ p.Ny.toNat = 1)
          (thermalPair (hubbardStep p) L) fun f z v =>
          Noisy P sys' cfg (fun m => m.uneq.arr f z) (fun m => m.uneq.sign) v) := by
  intro L cfg sys'
  obtain ⟨a1, a2⟩ := program_robust hmc hv hg hN fnbase rng hlaw hP sys hsys hw hr hnq
  have h4 := hv.l
  obtain ⟨sys0, e0, hok0, -, hmeas⟩ := sys_defined hmc hv hg.U hg.shift hN fnbase
  obtain rfl : sys0 = sys := Option.some.inj (e0.symm.trans hsys)
  have hok : sys'.Ok cfg.prodBlen := ⟨hok0.expK, hok0.hs, hlaw, hok0.dvd⟩
  have hL : 0 < cfg.L := by show 0 < p.L.toNat; omega
  have hd : cfg.prodBlen ∣ cfg.L := toNat_dvd hv.prodBlen hv.l hv.dvdL
  have hP' : sys'.rng.Ideal (sites p) P := hP
  have hme : ∀ gu gd m, sys'.meas.eq gu gd m ≠ none := fun gu gd m => eq_defined hv hg hmeas gu gd m
  have hmu : 0 < cfg.nuneqlt → ∀ st : State σ (sites p) MeasData, Inv sys' (fun _ _ => 1) cfg.L cfg.prodBlen 0 st →
      sys'.meas.uneq (st.Gu.sgndet * st.Gd.sgndet) st.tsmU st.tsmD st.meas ≠ none := fun hn st hst =>
    uneq_defined (sys := sys') (ph := (mkSetup mc p fnbase).ph) (cfg := cfg) hv hg hn rfl rfl hmeas st (by
      unfold AtRest
      rw [if_neg (by rw [show cfg.usePhonons = false from hp]; exact Bool.false_ne_true)]
      exact hst) st.meas
  exact ⟨fun hc hcL => (a1 hc hcL).mono fun f z v h => h.noisy hP' hok hL hd hp hme hmu,
    fun hc => (a2 hc).mono fun f z v h => h.noisy hP' hok hL hd hp hme hmu⟩

end program

/-- non-vacuity: one site with interaction, where the density comes close to its expectation value in spite of relative errors -/
example : ∃ mc : Machine, ∃ sys : Sys Seed (sites exU) MeasData, mc.Rounds ∧ sysOf mc exU = some sys ∧
    ∃ T, Noisy (independent (drawDist (sites exU))) (sys.withRng (idealRng (sites exU))) (mkSetup mc exU "").cfg
      (fun m => m.eq.arr .densityU 0) (fun m => m.eq.sign) T := by
  obtain ⟨mc, hmc⟩ := machine_exists
  obtain ⟨sys, hsys, hok, -⟩ := sys_defined hmc exU_admissible exU_guards.U exU_guards.shift (by decide) ""
  have hdiag : ∀ i j, i ≠ j → bondMatrix exU i j = 0 := fun i j h => absurd (Subsingleton.elim (α := Fin 1) i j) h
  obtain ⟨ho, hD⟩ := program_describes exU_admissible exU_guards sys hsys
  obtain ⟨-, hr⟩ := atomic_conditions exU_admissible exU_guards hdiag (by decide) sys hsys
  refine ⟨mc, sys, hmc, hsys, _, ((program_noisy hmc exU_admissible exU_guards (by decide) rfl "" _ (idealRng_lawful _)
    (idealRng_ideal _) sys hsys
    (fun s => weight_one_site hmc exU_admissible exU_guards rfl sys hsys _ s _ fun _ _ => one_pos) (fun i => ?_)
    (by decide)).1 (by decide) (by decide)).dens .densityU (by simp) 0 (by decide)⟩
  rcases hr i with h | h
  · left
    rw [← ho i]
    exact (decoupled_iff hD (by norm_num [exU, exP]) i).1 h
  · exact Or.inr h

end Verif.MonteCarlo
