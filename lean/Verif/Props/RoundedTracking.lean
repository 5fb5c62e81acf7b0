import Verif.Props.RoundedRun
import Verif.Props.Reference

/-! # Sweeps in rounded arithmetic follow the field

Errors grow from slice to slice only until the Green's functions are recomputed; as there are at most `2 nwraps` slices between
recomputations, a sufficiently precise arithmetic keeps all errors below any given bound, in runs of any length. -/

set_option autoImplicit false

namespace Verif.Rounded

open Filter Topology Matrix Verif.Lapack Verif.TimeFlow Verif.Greens Verif.Stratonovich Verif.MonteCarlo Verif.Ultra Verif.Fock

variable {σ : Type} {N : ℕ} {M : Type}

/-! ## Slices since the last recomputation -/

/-- bound on the number of slices since the last recomputation -/
def age (L nw t : ℕ) : ℕ := if t % L < nw then L % nw + t % L else t % L % nw

theorem age_lt {L nw : ℕ} (h0 : 0 < nw) (t : ℕ) : age L nw t < 2 * nw := by
  have h1 := Nat.mod_lt L h0
  have h2 := Nat.mod_lt (t % L) h0
  unfold age
  split <;> omega

theorem mod_succ {n m : ℕ} (hm : 0 < m) (h : (n + 1) % m ≠ 0) : (n + 1) % m = n % m + 1 := by
  have h1 := Nat.mod_lt n hm
  have h2 : (n + 1) % m = (n % m + 1) % m := by simp
  rcases Nat.lt_or_ge (n % m + 1) m with h3 | h3
  · rw [h2, Nat.mod_eq_of_lt h3]
  · rw [h2, show n % m + 1 = m by omega, Nat.mod_self] at h
    exact absurd rfl h

theorem step_mod {L : ℕ} (hL : 0 < L) (t : ℕ) : (t + 1) % L = if t % L + 1 = L then 0 else t % L + 1 := by
  have h1 := Nat.mod_lt t hL
  have h2 : (t + 1) % L = (t % L + 1) % L := by simp
  rw [h2]
  split
  · rename_i h
    rw [h, Nat.mod_self]
  · exact Nat.mod_eq_of_lt (by omega)

theorem age_succ {L nw : ℕ} (h0 : 0 < nw) (h1 : nw ≤ L) (t : ℕ) (h : (t % L + 1) % nw ≠ 0) : age L nw (t + 1) = age L nw t + 1 := by
  have hL : 0 < L := by omega
  have h2 := mod_succ h0 h
  have h3 := Nat.mod_lt t hL
  unfold age
  rw [step_mod hL]
  by_cases hl : t % L + 1 = L
  · rw [if_pos hl, if_pos h0]
    have h4 : ¬ t % L < nw := by
      intro h4
      rw [show t % L + 1 = nw by omega, Nat.mod_self] at h
      exact h rfl
    rw [if_neg h4, ← h2, hl, Nat.add_zero]
  · rw [if_neg hl]
    by_cases h4 : t % L < nw
    · have h5 : t % L + 1 < nw := by
        rcases Nat.lt_or_ge (t % L + 1) nw with h5 | h5
        · exact h5
        · rw [show t % L + 1 = nw by omega, Nat.mod_self] at h
          exact absurd rfl h
      rw [if_pos h4, if_pos h5]
      omega
    · rw [if_neg h4, if_neg (by omega), h2]

/-! ## Measurements -/

/-- Measurements with Green's functions known up to `d` add to the recorded quantities, as long as these are at most `A`, the
contributions `q` of the field up to an error `η`. -/
def MeasClose (sys : Sys σ N M) (L : ℕ) (ms : Meas N M) (Φ : Fin 2 → M → ℝ) (q : Fin 2 → ℕ → Field L N → ℝ) (d A η : ℝ) : Prop :=
  ∀ (s : ℕ → Fin N → Fin 2) (l : ℕ) (Gu Gd : GreensFn N) (m : M), l < L → NearG d (exactB sys false s) L (l + 1) Gu →
    NearG d (exactB sys true s) L (l + 1) Gd → (∀ a, |Φ a m| ≤ A) →
    ∃ m', ms.eq Gu Gd m = some m' ∧ ∀ a, |Φ a m' - Φ a m - q a l (fieldOf L s)| ≤ η

/-- Unequal time measurements at the end of a sweep in the arithmetic `ar` add the contributions `qu` of the field up to an error `η`,
as long as the recorded quantities are at most `A`. -/
def UneqClose (ar : Arith N) (sys : Sys σ N M) (tab : Tables N) (L len : ℕ) (ms : Meas N M) (Φ : Fin 2 → M → ℝ)
    (qu : Fin 2 → Field L N → ℝ) (d A η : ℝ) : Prop :=
  ∀ (s : ℕ → Fin N → Fin 2) (Gu Gd : GreensFn N) (tU tD : TSM N) (m : M), SpinNear ar sys tab L len 0 s false d tU Gu →
    SpinNear ar sys tab L len 0 s true d tD Gd → (∀ a, |Φ a m| ≤ A) →
    ∃ m', ms.uneq (Gu.sgndet * Gd.sgndet) tU tD m = some m' ∧ ∀ a, |Φ a m' - Φ a m - qu a (fieldOf L s)| ≤ η

/-! ## Sweeps -/

section sweeps

variable [NeZero N] {ar : Arith N} {sys : Sys σ N M} {cfg : Cfg} {tab : Tables N} {ms : Meas N M}

theorem finish_eq {it : ℤ} {s : ℕ → Fin N → Fin 2} {l : ℕ} {v : Numbers N M} {L : ℕ} {gu gd : GreensFn N} {m : M} {tU tD : TSM N}
    (htU : tU = updateWith ar (slices ar sys tab tab.hs.expVu s) (invSlices ar sys tab tab.hs.expVu s) sys.W0 l v.tsmU)
    (htD : tD = updateWith ar (slices ar sys tab tab.hs.expVd s) (invSlices ar sys tab tab.hs.expVd s) sys.W0 l v.tsmD)
    (hL : tU.L = L)
    (hu : (if (l + 1) % sys.nwraps = 0 then greenConstruct ar tU ((l + 1) % L) else some v.Gu) = some gu)
    (hd : (if (l + 1) % sys.nwraps = 0 then greenConstruct ar tD ((l + 1) % L) else some v.Gd) = some gd)
    (hm : (if effNeqlt cfg it > 0 ∧ (l + 1) % effNeqlt cfg it = 0 then ms.eq gu gd v.meas else some v.meas) = some m) :
    finish ar sys cfg tab ms it s l v = some { tsmU := tU, tsmD := tD, Gu := gu, Gd := gd, meas := m } := by
  subst hL
  unfold finish
  simp only [← htU, ← htD]
  by_cases h1 : (l + 1) % sys.nwraps = 0
  · rw [if_pos h1] at hu hd
    simp only [if_pos h1, hu, hd, Option.bind_eq_bind, Option.bind_some]
    by_cases h2 : effNeqlt cfg it > 0 ∧ (l + 1) % effNeqlt cfg it = 0
    · rw [if_pos h2] at hm
      simp only [if_pos h2, hm, Option.bind_some]
      rfl
    · rw [if_neg h2] at hm
      obtain rfl := Option.some.inj hm
      simp only [if_neg h2]
      rfl
  · rw [if_neg h1] at hu hd
    obtain rfl := Option.some.inj hu
    obtain rfl := Option.some.inj hd
    simp only [if_neg h1, Option.bind_eq_bind, Option.bind_some]
    by_cases h2 : effNeqlt cfg it > 0 ∧ (l + 1) % effNeqlt cfg it = 0
    · rw [if_pos h2] at hm
      simp only [if_pos h2, hm, Option.bind_some]
      rfl
    · rw [if_neg h2] at hm
      obtain rfl := Option.some.inj hm
      simp only [if_neg h2]
      rfl

theorem start_eq {s : ℕ → Fin N → Fin 2} {meas : M} {gu gd : GreensFn N} {tU tD : TSM N}
    (htU : tU = initWith ar (slices ar sys tab tab.hs.expVu s) (invSlices ar sys tab tab.hs.expVu s) sys.W0
      (allocate cfg.L cfg.prodBlen sys.junk))
    (htD : tD = initWith ar (slices ar sys tab tab.hs.expVd s) (invSlices ar sys tab tab.hs.expVd s) sys.W0
      (allocate cfg.L cfg.prodBlen sys.junk))
    (hu : greenConstruct ar tU 0 = some gu) (hd : greenConstruct ar tD 0 = some gd) :
    start ar sys cfg tab s meas = some { tsmU := tU, tsmD := tD, Gu := gu, Gd := gd, meas := meas } := by
  unfold start
  simp only [← htU, ← htD, hu, hd, Option.bind_eq_bind, Option.bind_some]
  rfl

theorem init_near {k len L : ℕ} (hlen : 0 < len) (hL : 0 < L) (hd : len ∣ L) {u e : ℝ} (hc : ConstructOk sys L k len u e)
    (ha : ar.Within k u) (ht : tab.Within sys u) (s : ℕ → Fin N → Fin 2) (b : Bool) :
    ∃ g, greenConstruct ar (initWith ar (slices ar sys tab (tableOf tab.hs b) s) (invSlices ar sys tab (tableOf tab.hs b) s) sys.W0
        (allocate L len sys.junk)) 0 = some g ∧
      SpinNear ar sys tab L len 0 s b e (initWith ar (slices ar sys tab (tableOf tab.hs b) s)
        (invSlices ar sys tab (tableOf tab.hs b) s) sys.W0 (allocate L len sys.junk)) g := by
  have hdim : Dims (allocate L len sys.junk) := by
    refine ⟨hlen, ?_, ?_⟩
    · exact Nat.div_pos (Nat.le_of_dvd hL hd) hlen
    · exact (Nat.div_mul_cancel hd).symm
  obtain ⟨h1, h2, h3, h4, h5⟩ := rinitWith_spec ar (slices ar sys tab (tableOf tab.hs b) s)
    (invSlices ar sys tab (tableOf tab.hs b) s) sys.W0 (allocate L len sys.junk) hdim
  set t := initWith ar (slices ar sys tab (tableOf tab.hs b) s) (invSlices ar sys tab (tableOf tab.hs b) s) sys.W0
    (allocate L len sys.junk)
  have htd : TsmDims L len t := ⟨h3, h4, h5⟩
  obtain ⟨g, e1, e2⟩ := hc ar tab s b 0 t ha ht hL (dvd_zero _) htd (fun l hl => (h1 l hl).1) h2
  exact ⟨g, e1, htd, h1, fun m hm _ => h2 m hm, e2⟩

/-- sweeps in a sufficiently precise arithmetic follow the field -/
theorem tracking {k : ℕ} (h : Sound sys cfg.L) (hL : 0 < cfg.L) (hlen : 0 < cfg.prodBlen) (hd : cfg.prodBlen ∣ cfg.L)
    (hdvd : cfg.prodBlen ∣ sys.nwraps) (hnw : 0 < sys.nwraps) (hnwL : sys.nwraps ≤ cfg.L)
    (Φ : Fin 2 → M → ℝ) (q : Fin 2 → ℕ → Field cfg.L N → ℝ) (qu : Fin 2 → Field cfg.L N → ℝ) {Q : ℝ}
    (hQ : ∀ a, ∀ l < cfg.L, ∀ x, |q a l x| ≤ Q) (hQu : ∀ a x, |qu a x| ≤ Q) {ε : ℝ} (hε : 0 < ε) : ∃ δ, 0 < δ ∧
    ∀ (ar : Arith N) (tab : Tables N) (ms : Meas N M) (T : ℕ) (η : ℝ), ar.Within k δ → tab.Within sys δ →
      MeasClose sys cfg.L ms Φ q ε (T * (2 * (Q + 1))) η →
      (cfg.nuneqlt ≤ 0 ∨ UneqClose ar sys tab cfg.L cfg.prodBlen ms Φ qu ε (T * (2 * (Q + 1))) η) → 0 ≤ η → η ≤ 1 →
      ∃ I J, (∀ a, Tracking sys cfg (numerics ar sys cfg tab ms) T ε (fun v => Φ a v.meas) (q a) (qu a) (2 * η) I J) ∧
        ∀ s meas, (∀ a, Φ a meas = 0) → ∃ v, start ar sys cfg tab s meas = some v ∧ I 0 s v ∧ v.meas = meas := by
  obtain ⟨e, e0, e1, e2, e3⟩ := chain (k := k) h hε (2 * sys.nwraps * (N + 1))
  obtain ⟨u, u0, u1, hc⟩ := construct_ok (k := k) h cfg.prodBlen (e0 0)
  have emono : Monotone e := monotone_nat_of_le_succ e1
  have hQ0 : 0 ≤ Q := (abs_nonneg _).trans (hQ 0 0 hL (fieldOf cfg.L fun _ _ => 0))
  refine ⟨u, u0, fun ar tab ms T η ha ht hm hmu hη0 hη1 => ?_⟩
  have hae : ∀ m, ar.Within k (e m) := fun m => ha.mono (u1.trans (emono (Nat.zero_le m)))
  have hte : ∀ m, tab.Within sys (e m) := fun m => ht.mono (u1.trans (emono (Nat.zero_le m)))
  let st : ℕ → ℕ := fun t => age cfg.L sys.nwraps t * (N + 1)
  have hst : ∀ t j, j ≤ N → st t + j < 2 * sys.nwraps * (N + 1) := by
    intro t j hj
    have h1 := age_lt (L := cfg.L) hnw t
    have h2 : (age cfg.L sys.nwraps t + 1) * (N + 1) ≤ 2 * sys.nwraps * (N + 1) := Nat.mul_le_mul_right _ h1
    simp only [st]
    rw [Nat.add_mul] at h2
    omega
  let I : ℕ → (ℕ → Fin N → Fin 2) → Numbers N M → Prop := fun t s v =>
    SpinNear ar sys tab cfg.L cfg.prodBlen (t % cfg.L) s false (e (st t)) v.tsmU v.Gu ∧
    SpinNear ar sys tab cfg.L cfg.prodBlen (t % cfg.L) s true (e (st t)) v.tsmD v.Gd ∧
    ∀ a, |Φ a v.meas| ≤ t * (2 * (Q + 1))
  let J : ℕ → ℕ → (ℕ → Fin N → Fin 2) → Numbers N M → Prop := fun t j s v => j ≤ N ∧
    SpinNearMid ar sys tab cfg.L cfg.prodBlen (t % cfg.L) s false (e (st t + 1 + (N - j))) v.tsmU v.Gu ∧
    SpinNearMid ar sys tab cfg.L cfg.prodBlen (t % cfg.L) s true (e (st t + 1 + (N - j))) v.tsmD v.Gd ∧
    ∀ a, |Φ a v.meas| ≤ t * (2 * (Q + 1))
  refine ⟨I, J, fun a => ?_, ?_⟩
  · constructor
    · rintro t - s v ⟨i1, i2, i3⟩
      have hl := Nat.mod_lt t hL
      have hs := e3 (st t) (hst t 0 (Nat.zero_le _))
      refine ⟨⟨le_rfl, ?_, ?_, i3⟩, rfl⟩
      · rw [Nat.sub_self]
        exact i1.wrap hs (hae _) (hte _) hl
      · rw [Nat.sub_self]
        exact i2.wrap hs (hae _) (hte _) hl
    · rintro t - j s v ⟨j1, j2, j3, j4⟩
      have : e (st t + 1 + (N - (j + 1))) ≤ e (st t + 1 + (N - j)) := emono (by omega)
      exact ⟨by omega, j2.mono this, j3.mono this, j4⟩
    · rintro t - j s v i ⟨j1, j2, j3, j4⟩
      have hl := Nat.mod_lt t hL
      have hs := e3 (st t + 1 + (N - (j + 1))) (by have := hst t (1 + (N - (j + 1))) (by omega); omega)
      exact (hs.factor ar tab s _ i v.Gu v.Gd (hae _) (hte _) hl j2.near j3.near).trans (e2 _)
    · rintro t - j s v i ⟨j1, j2, j3, j4⟩ -
      have hl := Nat.mod_lt t hL
      have hs := e3 (st t + 1 + (N - (j + 1))) (by have := hst t (1 + (N - (j + 1))) (by omega); omega)
      have ej : st t + 1 + (N - (j + 1)) + 1 = st t + 1 + (N - j) := by omega
      rw [ej] at hs
      exact ⟨⟨by omega, j2.update hs (hae _) (hte _) hl i, j3.update hs (hae _) (hte _) hl i, j4⟩, rfl⟩
    · rintro t htT s v ⟨j1, j2, j3, j4⟩
      have hl := Nat.mod_lt t hL
      obtain ⟨hU, gu, hgu, nu⟩ := j2.finish hc ha ht hl hdvd
      obtain ⟨-, gd, hgd, nd⟩ := j3.finish hc ha ht hl hdvd
      have hnu : SpinNear ar sys tab cfg.L cfg.prodBlen ((t + 1) % cfg.L) s false (e (st (t + 1)))
          (updateWith ar (slices ar sys tab (tableOf tab.hs false) s) (invSlices ar sys tab (tableOf tab.hs false) s) sys.W0
            (t % cfg.L) v.tsmU) gu := by
        have h1 := nu.mono (e' := e (st (t + 1))) (by
          split
          · exact emono (Nat.zero_le _)
          · rename_i hr
            refine emono ?_
            simp only [st]
            rw [age_succ hnw hnwL t hr, Nat.add_mul]
            omega)
        rw [step_mod hL]
        split
        · rename_i hlast
          rw [hlast] at h1
          exact h1.next
        · exact h1
      have hnd : SpinNear ar sys tab cfg.L cfg.prodBlen ((t + 1) % cfg.L) s true (e (st (t + 1)))
          (updateWith ar (slices ar sys tab (tableOf tab.hs true) s) (invSlices ar sys tab (tableOf tab.hs true) s) sys.W0
            (t % cfg.L) v.tsmD) gd := by
        have h1 := nd.mono (e' := e (st (t + 1))) (by
          split
          · exact emono (Nat.zero_le _)
          · rename_i hr
            refine emono ?_
            simp only [st]
            rw [age_succ hnw hnwL t hr, Nat.add_mul]
            omega)
        rw [step_mod hL]
        split
        · rename_i hlast
          rw [hlast] at h1
          exact h1.next
        · exact h1
      have hle : ((t + 1 : ℕ) : ℝ) * (2 * (Q + 1)) = t * (2 * (Q + 1)) + (Q + 1) + (Q + 1) := by
        push_cast
        ring
      have hTle : ((t + 1 : ℕ) : ℝ) * (2 * (Q + 1)) ≤ T * (2 * (Q + 1)) :=
        mul_le_mul_of_nonneg_right (Nat.cast_le.2 htT) (by linarith)
      -- equal time measurement
      obtain ⟨m₁, em, hb₁, hg₁⟩ : ∃ m₁, (if effNeqlt cfg ((t / cfg.L : ℕ) : ℤ) > 0 ∧
            (t % cfg.L + 1) % effNeqlt cfg ((t / cfg.L : ℕ) : ℤ) = 0 then ms.eq gu gd v.meas else some v.meas) = some m₁ ∧
          (∀ a, |Φ a m₁| ≤ t * (2 * (Q + 1)) + (Q + 1)) ∧
          if cfg.nequil ≤ ((t / cfg.L : ℕ) : ℤ) then |Φ a m₁ - Φ a v.meas - (if 0 < cfg.neqlt ∧ cfg.neqlt ∣ ((t % cfg.L : ℕ) : ℤ) + 1 then
            q a (t % cfg.L) (fieldOf cfg.L s) else 0)| ≤ η else Φ a m₁ = Φ a v.meas := by
        by_cases hdue : effNeqlt cfg ((t / cfg.L : ℕ) : ℤ) > 0 ∧ (t % cfg.L + 1) % effNeqlt cfg ((t / cfg.L : ℕ) : ℤ) = 0
        · obtain ⟨m', em, hq⟩ := hm s (t % cfg.L) gu gd v.meas hl (nu.near.mono (by split <;> exact e2 _))
            (nd.near.mono (by split <;> exact e2 _)) (fun a => by have := j4 a; linarith)
          refine ⟨m', by rw [if_pos hdue]; exact em, fun a => ?_, ?_⟩
          · have h1 := hq a
            have h2 := hQ a (t % cfg.L) hl (fieldOf cfg.L s)
            have h3 := j4 a
            rw [abs_le] at h1 h2 h3 ⊢
            constructor <;> linarith [h1.1, h1.2, h2.1, h2.2, h3.1, h3.2]
          · obtain ⟨d1, d2, d3⟩ := (due_iff cfg _ _).1 hdue
            rw [if_pos d1, if_pos ⟨d2, d3⟩]
            exact hq a
        · refine ⟨v.meas, by rw [if_neg hdue], fun a => ?_, ?_⟩
          · have := j4 a
            linarith
          · split
            · rename_i hn
              rw [if_neg (fun h => hdue ((due_iff cfg _ _).2 ⟨hn, h⟩)), sub_self, sub_zero, abs_zero]
              exact hη0
            · rfl
      have hfin := finish_eq (it := ((t / cfg.L : ℕ) : ℤ)) (ms := ms) (cfg := cfg) (m := m₁) rfl rfl hU hgu hgd em
      -- unequal time measurement
      by_cases hclose : t % cfg.L + 1 = cfg.L ∧ ((t / cfg.L : ℕ) : ℤ) ≥ cfg.nequil ∧ cfg.nuneqlt > 0 ∧
          ((t / cfg.L : ℕ) : ℤ).tmod cfg.nuneqlt = 0
      · obtain ⟨c1, c2, c3, c4⟩ := hclose
        have h0 : (t + 1) % cfg.L = 0 := by rw [step_mod hL, if_pos c1]
        have hnu' := hnu
        have hnd' := hnd
        rw [h0] at hnu' hnd'
        obtain ⟨m₂, em₂, hq₂⟩ := (hmu.resolve_left (by omega)) s gu gd _ _ m₁ (hnu'.mono (e2 _)) (hnd'.mono (e2 _))
          (fun a => by have := hb₁ a; linarith)
        have hcl : ∀ v₁ : Numbers N M, ms.uneq (v₁.Gu.sgndet * v₁.Gd.sgndet) v₁.tsmU v₁.tsmD v₁.meas = some m₂ →
            (if t % cfg.L + 1 = cfg.L then (numerics ar sys cfg tab ms).close ((t / cfg.L : ℕ) : ℤ) s v₁ else some v₁) =
              some { v₁ with meas := m₂ } := by
          intro v₁ e₁
          rw [if_pos c1]
          unfold numerics
          simp only [if_pos (show ((t / cfg.L : ℕ) : ℤ) ≥ cfg.nequil ∧ cfg.nuneqlt > 0 ∧
            ((t / cfg.L : ℕ) : ℤ).tmod cfg.nuneqlt = 0 from ⟨c2, c3, c4⟩), e₁, Option.bind_eq_bind, Option.bind_some]
          rfl
        have hend := (congrArg (fun o => Option.bind o fun v => if t % cfg.L + 1 = cfg.L then
          (numerics ar sys cfg tab ms).close ((t / cfg.L : ℕ) : ℤ) s v else some v) hfin).trans (hcl _ em₂)
        refine ⟨_, hend, ⟨hnu, hnd, fun a => ?_⟩, ?_⟩
        · have h1 := hq₂ a
          have h2 := hQu a (fieldOf cfg.L s)
          have h3 := hb₁ a
          rw [hle]
          rw [abs_le] at h1 h2 h3 ⊢
          constructor <;> linarith [h1.1, h1.2, h2.1, h2.2, h3.1, h3.2]
        · rw [if_pos c2] at hg₁ ⊢
          unfold gain
          rw [if_pos (show t % cfg.L + 1 = cfg.L ∧ 0 < cfg.nuneqlt ∧ cfg.nuneqlt ∣ ((t / cfg.L : ℕ) : ℤ) from
            ⟨c1, c3, Int.dvd_of_tmod_eq_zero c4⟩)]
          have h1 := hq₂ a
          rw [abs_le] at h1 hg₁ ⊢
          constructor <;> linarith [h1.1, h1.2, hg₁.1, hg₁.2]
      · have hcl : ∀ v : Numbers N M, (if t % cfg.L + 1 = cfg.L then
            (numerics ar sys cfg tab ms).close ((t / cfg.L : ℕ) : ℤ) s v else some v) = some v := by
          intro v
          split
          · rename_i c1
            exact if_neg fun h => hclose ⟨c1, h⟩
          · rfl
        have hend := (congrArg (fun o => Option.bind o fun v => if t % cfg.L + 1 = cfg.L then
          (numerics ar sys cfg tab ms).close ((t / cfg.L : ℕ) : ℤ) s v else some v) hfin).trans (hcl _)
        refine ⟨_, hend, ⟨hnu, hnd, fun a => ?_⟩, ?_⟩
        · have := hb₁ a
          rw [hle]
          linarith
        · split
          · rename_i hn
            rw [if_pos hn] at hg₁
            unfold gain
            rw [if_neg (show ¬ (t % cfg.L + 1 = cfg.L ∧ 0 < cfg.nuneqlt ∧ cfg.nuneqlt ∣ ((t / cfg.L : ℕ) : ℤ)) from
              fun h => hclose ⟨h.1, hn, h.2.1, Int.tmod_eq_zero_of_dvd h.2.2⟩), add_zero]
            exact hg₁.trans (by linarith)
          · rename_i hn
            rw [if_neg hn] at hg₁
            exact hg₁
  · intro s meas hz
    obtain ⟨gu, h1, h2⟩ := init_near (ar := ar) (tab := tab) hlen hL hd hc ha ht s false
    obtain ⟨gd, h3, h4⟩ := init_near (ar := ar) (tab := tab) hlen hL hd hc ha ht s true
    refine ⟨_, start_eq rfl rfl h1 h3, ⟨?_, ?_, ?_⟩, rfl⟩
    · rw [Nat.zero_mod]
      exact h2.mono (emono (Nat.zero_le _))
    · rw [Nat.zero_mod]
      exact h4.mono (emono (Nat.zero_le _))
    · intro a
      simp only [hz, abs_zero, Nat.cast_zero, zero_mul, le_refl]

end sweeps

end Verif.Rounded
