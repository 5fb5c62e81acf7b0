import Verif.Model.MonteCarlo
import Verif.Props.Greens

/-! # Invariants of a sweep, for one spin species -/

set_option autoImplicit false

namespace Verif.MonteCarlo

open Matrix Verif.Lapack Verif.TimeFlow Verif.Greens Verif.Stratonovich

variable {N : ℕ}

/-- specification: the record `G` is the exact Green's function of the product of the matrices `B`
that starts at slice `shift`, together with the exact determinant -/
structure GoodG (B : ℕ → Mat N) (L shift : ℕ) (G : GreensFn N) : Prop where
  det_ne : (1 + cyclicProd B L shift).det ≠ 0
  mat : G.mat = (1 + cyclicProd B L shift)⁻¹
  det : (G.sgndet : ℝ) * Real.exp G.logdet = (1 + cyclicProd B L shift)⁻¹.det
  sgn : G.sgndet = 1 ∨ G.sgndet = -1

theorem GoodG.congr {B B' : ℕ → Mat N} {L shift : ℕ} {G : GreensFn N} (h : GoodG B L shift G)
    (hB : ∀ l < L, B l = B' l) : GoodG B' L shift G := by
  have e : cyclicProd B L shift = cyclicProd B' L shift :=
    prodSeq_congr fun l hl => hB _ (Nat.mod_lt _ (by omega))
  exact ⟨e ▸ h.det_ne, e ▸ h.mat, e ▸ h.det, h.sgn⟩

theorem GoodG.shift_congr {B : ℕ → Mat N} {L a b : ℕ} {G : GreensFn N} (h : GoodG B L a G)
    (hab : a % L = b % L) : GoodG B L b G := by
  have e : cyclicProd B L a = cyclicProd B L b := by
    rw [← cyclicProd_mod B L a, hab, cyclicProd_mod]
  exact ⟨e ▸ h.det_ne, e ▸ h.mat, e ▸ h.det, h.sgn⟩

/-- two records for the same product are equal: recomputation only removes rounding errors -/
theorem GoodG.unique {B : ℕ → Mat N} {L shift : ℕ} {G G' : GreensFn N} (h : GoodG B L shift G)
    (h' : GoodG B L shift G') : G = G' := by
  obtain ⟨l1, s1⟩ := det_record_unique h.det h.sgn
  obtain ⟨l2, s2⟩ := det_record_unique h'.det h'.sgn
  have hs : G.sgndet = G'.sgndet := by
    have : (G.sgndet : ℝ) = G'.sgndet := by rw [s1, s2]
    exact_mod_cast this
  cases G; cases G'
  simp only [GreensFn.mk.injEq]
  exact ⟨h.mat.trans h'.mat.symm, l1.trans l2.symm, hs⟩

theorem GoodG.wrap {B : ℕ → Mat N} {L l : ℕ} {G : GreensFn N} (h : GoodG B L l G) (hl : l < L)
    (Bl invBl : Mat N) (hB : Bl = B l) (hinv : Bl * invBl = 1) :
    GoodG B L (l + 1) { G with mat := timeSliceWrap Bl invBl G.mat } := by
  subst hB
  have hc := cyclicProd_succ B L l
  rw [Nat.mod_eq_of_lt hl] at hc
  obtain ⟨h1, h2⟩ := wrap_conj _ _ _ _ hinv hc
  refine ⟨by rw [h2]; exact h.det_ne, ?_, ?_, h.sgn⟩
  · simp only; rw [h.mat, h1]
  · simp only; rw [h.det, det_nonsing_inv, det_nonsing_inv, h2]

/-- the product that starts at slice `l+1` ends with the matrix of slice `l` -/
theorem cyclicProd_last (B : ℕ → Mat N) (L l : ℕ) (hl : l < L) :
    cyclicProd B L (l + 1) = B l * prodSeq (fun i => B ((l + 1 + i) % L)) (L - 1) := by
  obtain ⟨L, rfl⟩ : ∃ k, L = k + 1 := ⟨L - 1, by omega⟩
  unfold cyclicProd
  rw [prodSeq, show l + 1 + L = l + (L + 1) by ring, Nat.add_mod_right, Nat.mod_eq_of_lt hl,
    Nat.add_sub_cancel]

theorem cyclicProd_update (B : ℕ → Mat N) (L l : ℕ) (hl : l < L) (M : Mat N) :
    cyclicProd (Function.update B l M) L (l + 1)
      = M * prodSeq (fun i => B ((l + 1 + i) % L)) (L - 1) := by
  rw [cyclicProd_last _ L l hl, Function.update_self]
  congr 1
  refine prodSeq_congr fun i hi => ?_
  rw [Function.update_of_ne]
  intro h
  by_cases hlt : l + 1 + i < L
  · rw [Nat.mod_eq_of_lt hlt] at h; omega
  · rw [Nat.mod_eq_sub_mod (by omega), Nat.mod_eq_of_lt (by omega)] at h; omega

theorem scaleRow_mul (i : Fin N) (delta : ℝ) (A C : Mat N) :
    scaleRow i delta (A * C) = scaleRow i delta A * C := by
  ext a b
  simp only [scaleRow, of_apply, mul_apply]
  split
  · rw [Finset.mul_sum]
    exact Finset.sum_congr rfl fun k _ => by ring
  · rfl

theorem cyclicProd_scaleRow (B : ℕ → Mat N) (L l : ℕ) (hl : l < L) (i : Fin N) (delta : ℝ) :
    cyclicProd (Function.update B l (scaleRow i delta (B l))) L (l + 1)
      = scaleRow i delta (cyclicProd B L (l + 1)) := by
  rw [cyclicProd_update B L l hl, ← scaleRow_mul, ← cyclicProd_last B L l hl]

/-- the acceptance factor is the ratio of the determinants -/
theorem GoodG.ratio_eq {B : ℕ → Mat N} {L l : ℕ} {G : GreensFn N} (h : GoodG B L (l + 1) G)
    (hl : l < L) (i : Fin N) (delta : ℝ) :
    (1 + cyclicProd (Function.update B l (scaleRow i delta (B l))) L (l + 1)).det
      = ratio G i delta * (1 + cyclicProd B L (l + 1)).det := by
  rw [cyclicProd_scaleRow B L l hl, det_ratio _ h.det_ne, ratio, h.mat]

/-- an accepted update keeps the record exact -/
theorem GoodG.apply {B : ℕ → Mat N} {L l : ℕ} {G : GreensFn N} (h : GoodG B L (l + 1) G)
    (hl : l < L) (i : Fin N) (delta : ℝ) (hr : ratio G i delta ≠ 0) :
    GoodG (Function.update B l (scaleRow i delta (B l))) L (l + 1)
      (applyUpdate G i delta (ratio G i delta)) := by
  have hdet := h.ratio_eq hl i delta
  have hne : (1 + cyclicProd (Function.update B l (scaleRow i delta (B l))) L (l + 1)).det ≠ 0 := by
    rw [hdet]; exact mul_ne_zero hr h.det_ne
  refine ⟨hne, ?_, ?_, ?_⟩
  · simp only [applyUpdate]
    rw [h.mat, shermanMorrison_spec _ h.det_ne, cyclicProd_scaleRow B L l hl]
    rwa [ratio, h.mat] at hr
  · rw [det_nonsing_inv, hdet, Ring.inverse_eq_inv', mul_inv]
    have h0 := h.det
    rw [det_nonsing_inv, Ring.inverse_eq_inv'] at h0
    rw [← h0]
    simp only [applyUpdate]
    rw [Real.exp_sub, Real.exp_log (abs_pos.2 hr)]
    by_cases hd : ratio G i delta < 0
    · rw [if_pos hd, abs_of_neg hd]; push_cast; field_simp
    · rw [if_neg hd, abs_of_nonneg (not_lt.1 hd)]; field_simp
  · simp only [applyUpdate]
    split
    · rcases h.sgn with h | h <;> simp [h]
    · exact h.sgn

/-- dimensions of the time step matrices -/
structure TsmDims (L len : ℕ) (tsm : TSM N) : Prop where
  dims : Dims tsm
  hL : tsm.L = L
  hlen : tsm.prodBlen = len

/-- all blocks are fresh, except possibly the one slice `l` lies strictly inside of -/
def FreshFrom (tsm : TSM N) (l : ℕ) : Prop :=
  ∀ m < tsm.numBprod, ¬ (m = l / tsm.prodBlen ∧ l % tsm.prodBlen ≠ 0) → FreshAt tsm m

/-- invariant of one spin species before slice `l` is processed: matrices, inverses and caches belong
to the current matrices `B`, and `G` is the Green's function at slice `l` -/
structure SpinInv (B : ℕ → Mat N) (L len l : ℕ) (tsm : TSM N) (G : GreensFn N) : Prop where
  td : TsmDims L len tsm
  mats : ∀ k < L, tsm.B k = B k ∧ tsm.B k * tsm.invB k = 1
  fresh : FreshFrom tsm l
  good : GoodG B L l G

/-- the same in the middle of slice `l`: the matrices of slice `l` are not yet updated -/
structure SpinMid (B : ℕ → Mat N) (L len l : ℕ) (tsm : TSM N) (G : GreensFn N) : Prop where
  td : TsmDims L len tsm
  mats : ∀ k < L, k ≠ l → tsm.B k = B k ∧ tsm.B k * tsm.invB k = 1
  fresh : FreshFrom tsm l
  good : GoodG B L (l + 1) G

theorem SpinInv.wrap {B : ℕ → Mat N} {L len l : ℕ} {tsm : TSM N} {G : GreensFn N}
    (h : SpinInv B L len l tsm G) (hl : l < L) :
    SpinMid B L len l tsm { G with mat := timeSliceWrap (tsm.B l) (tsm.invB l) G.mat } :=
  ⟨h.td, fun k hk _ => h.mats k hk, h.fresh,
    h.good.wrap hl _ _ (h.mats l hl).1 (h.mats l hl).2⟩

theorem SpinMid.apply {B : ℕ → Mat N} {L len l : ℕ} {tsm : TSM N} {G : GreensFn N}
    (h : SpinMid B L len l tsm G) (hl : l < L) (i : Fin N) (delta : ℝ) (hr : ratio G i delta ≠ 0) :
    SpinMid (Function.update B l (scaleRow i delta (B l))) L len l tsm
      (applyUpdate G i delta (ratio G i delta)) :=
  ⟨h.td, fun k hk hkl => by rw [Function.update_of_ne hkl]; exact h.mats k hk hkl, h.fresh,
    h.good.apply hl i delta hr⟩

theorem SpinMid.update {B : ℕ → Mat N} {L len l : ℕ} {tsm : TSM N} {G : GreensFn N}
    (h : SpinMid B L len l tsm G) (mk mkInv : ℕ → Mat N) (W0 : Mat N)
    (hmk : mk l = B l) (hinv : mk l * mkInv l = 1) :
    SpinInv B L len (l + 1) (updateWith mk mkInv W0 l tsm) G := by
  have hp := h.td.dims.len
  obtain ⟨u1, u2, ⟨u3, u4, u5⟩, u6, u7⟩ := updateWith_spec mk mkInv W0 l tsm hp
  refine ⟨⟨⟨?_, ?_, ?_⟩, ?_, ?_⟩, ?_, ?_, h.good⟩
  · rw [u4]; exact hp
  · rw [u5]; exact h.td.dims.num
  · rw [u3, u4, u5]; exact h.td.dims.mul
  · rw [u3]; exact h.td.hL
  · rw [u4]; exact h.td.hlen
  · intro k hk
    rw [u1, u2]
    by_cases hkl : k = l
    · subst hkl; rw [Function.update_self, Function.update_self]; exact ⟨hmk, hinv⟩
    · rw [Function.update_of_ne hkl, Function.update_of_ne hkl]; exact h.mats k hk hkl
  · intro m hm hex
    rw [u5] at hm
    rw [u4] at hex
    by_cases hml : m = l / tsm.prodBlen
    · -- the block of slice l
      subst hml
      apply u7
      by_contra hlast
      apply hex
      have hlt := Nat.mod_lt l hp
      have hdm := Nat.div_add_mod l tsm.prodBlen
      generalize hr : l % tsm.prodBlen = r at *
      generalize hq : l / tsm.prodBlen = q at *
      have e : l + 1 = (r + 1) + tsm.prodBlen * q := by rw [← hdm]; ring
      have hr1 : r + 1 < tsm.prodBlen := by omega
      rw [e, Nat.add_mul_div_left _ _ hp, Nat.add_mul_mod_self_left,
        Nat.div_eq_of_lt hr1, Nat.mod_eq_of_lt hr1]
      exact ⟨by omega, by omega⟩
    · exact u6 m hml (h.fresh m hm (by rintro ⟨rfl, -⟩; exact hml rfl))

theorem FreshFrom.fresh {tsm : TSM N} {l : ℕ} (h : FreshFrom tsm l) (hl : tsm.prodBlen ∣ l) :
    Fresh tsm := fun m hm => h m hm (by rintro ⟨-, h'⟩; exact h' (Nat.mod_eq_zero_of_dvd hl))

theorem TsmDims.dvd {L len : ℕ} {tsm : TSM N} (h : TsmDims L len tsm) : len ∣ L := by
  rw [← h.hL, ← h.hlen, h.dims.mul]; exact dvd_mul_left _ _

/-- `GreenConstruct` at a block boundary succeeds and keeps the invariant -/
theorem SpinInv.construct [NeZero N] {B : ℕ → Mat N} {L len l : ℕ} {tsm : TSM N} {G : GreensFn N}
    (h : SpinInv B L len l tsm G) (lp : Lapack N) (hl : len ∣ l) :
    ∃ g, greenConstruct lp tsm (l % L) = some g ∧ SpinInv B L len l tsm g := by
  have hf : Fresh tsm := h.fresh.fresh (by rw [h.td.hlen]; exact hl)
  have hcyc : cyclicProd tsm.B tsm.L (l % L) = cyclicProd B L l := by
    rw [h.td.hL, cyclicProd_mod]
    exact prodSeq_congr fun k hk => (h.mats _ (Nat.mod_lt _ (by omega))).1
  have hdvd : tsm.prodBlen ∣ l % L := by
    rw [h.td.hlen]; exact (Nat.dvd_mod_iff h.td.dvd).2 hl
  obtain ⟨g, h1, h2, h3, h4⟩ := greenConstruct_cyclic lp tsm h.td.dims hf (l % L) hdvd
    (by rw [hcyc]; exact h.good.det_ne)
  rw [hcyc] at h2 h3
  exact ⟨g, h1, ⟨h.td, h.mats, h.fresh, ⟨h.good.det_ne, h2, h3, h4⟩⟩⟩

/-- the end of a sweep is the beginning of the next one -/
theorem SpinInv.next {B : ℕ → Mat N} {L len : ℕ} {tsm : TSM N} {G : GreensFn N}
    (h : SpinInv B L len L tsm G) : SpinInv B L len 0 tsm G := by
  refine ⟨h.td, h.mats, ?_, h.good.shift_congr (by simp)⟩
  intro m hm _
  exact h.fresh.fresh (by rw [h.td.hlen]; exact h.td.dvd) m hm

theorem SpinInv.congr {B B' : ℕ → Mat N} {L len l : ℕ} {tsm : TSM N} {G : GreensFn N}
    (h : SpinInv B L len l tsm G) (hB : ∀ k < L, B k = B' k) : SpinInv B' L len l tsm G :=
  ⟨h.td, fun k hk => by rw [← hB k hk]; exact h.mats k hk, h.fresh, h.good.congr hB⟩

/-- freshly initialised matrices with the Green's function at slice 0 -/
theorem SpinInv.init [NeZero N] (L len : ℕ) (hL : 0 < L) (hd : len ∣ L) (lp : Lapack N)
    (junk : ℕ → Mat N) (mk mkInv : ℕ → Mat N) (W0 : Mat N) (hinv : ∀ l < L, mk l * mkInv l = 1) :
    let tsm := initWith mk mkInv W0 (allocate L len junk)
    TsmDims L len tsm ∧ (∀ k < L, tsm.B k = mk k ∧ tsm.B k * tsm.invB k = 1) ∧ FreshFrom tsm 0 ∧
    ∀ g, greenConstruct lp tsm 0 = some g → SpinInv mk L len 0 tsm g := by
  intro tsm
  obtain ⟨hB, hF, hD, h1, h2, -⟩ := initWith_spec mk mkInv W0 (allocate L len junk)
    (allocate_dims L len hL hd junk)
  have hm : ∀ k < L, tsm.B k = mk k ∧ tsm.B k * tsm.invB k = 1 := by
    intro k hk
    obtain ⟨b1, b2⟩ := hB k hk
    exact ⟨b1, by rw [b1, b2]; exact hinv k hk⟩
  have hcyc : cyclicProd tsm.B tsm.L 0 = cyclicProd mk L 0 := by
    rw [h1]
    exact prodSeq_congr fun k hk => (hm _ (Nat.mod_lt _ hL)).1
  have hfr : FreshFrom tsm 0 := fun m hm _ => hF m hm
  refine ⟨⟨hD, h1, h2⟩, hm, hfr, fun g hg => ⟨⟨hD, h1, h2⟩, hm, hfr, ?_⟩⟩
  have hspec := greenConstruct_spec lp tsm hD.num 0 (cyclicProd mk L 0) (by
    rw [← hcyc, cyclic_of_fresh tsm hD hF]; simp)
  have hne : (1 + cyclicProd mk L 0).det ≠ 0 := by
    intro h0
    rw [hspec.2 h0] at hg
    cases hg
  obtain ⟨g', e1, e2, e3, e4⟩ := hspec.1 hne
  rw [hg] at e1
  cases e1
  exact ⟨hne, e2, e3, e4⟩

end Verif.MonteCarlo
